"""List definitions without a comment, or whose comment neither cites a source line nor says what kind of helper it is."""
import re,glob,sys
KIND=re.compile(r'l\.\s?[~≈]?\d|Specification|Proof|Sample|Test|Helper|eckit|std::|C\+\+|IEEE')
n=0
for f in sorted(glob.glob('/verif/lean/Verif/*.lean')):
    ls=open(f).read().split('\n')
    for i,l in enumerate(ls):
        m=re.match(r'(?:private |@\[.*?\] )*(def|structure|inductive|abbrev)\s+(\S+)',l)
        if not m: continue
        j=i-1; doc=''
        if j>=0 and ls[j].rstrip().endswith('-/'):
            k=j
            while k>=0 and '/-' not in ls[k]: k-=1
            doc=' '.join(ls[k:j+1])
        if not doc or not KIND.search(doc):
            n+=1
            print(f.split('/')[-1],i+1,m.group(2),'|',doc[:110] or 'NONE')
print(n)
