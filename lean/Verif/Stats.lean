import Verif.CodecSer

/-
Lemmas about the column statistics gathered before encoding (Codec.cc l.100-112).
-/

namespace Verif

theorem feq_self {m : Word} (h : isNaN m = false) : feq m m = true := by simp [feq, h]

theorem feq_comm (a b : Word) : feq a b = feq b a := by
  unfold feq
  cases isNaN a <;> cases isNaN b <;> simp [eq_comm]

/-- What the statistics mean, stated without reference to how they are computed: `m` is the missing
value, `ds` the values seen (as doubles). -/
structure StatInv (m : Word) (ds : List Word) (c : Codec) : Prop where
  missing : c.missing = m
  has : c.hasMissing ≠ 0 ↔ ∃ d ∈ ds, feq d m = true
  has01 : c.hasMissing = 0 ∨ c.hasMissing = 1
  none : (∀ d ∈ ds, feq d m = true) → c.min = m ∧ c.max = m
  minmem : (∃ d ∈ ds, feq d m = false) → c.min ∈ ds ∧ feq c.min m = false ∧
      ∀ d ∈ ds, feq d m = false → fkey c.min ≤ fkey d
  maxmem : (∃ d ∈ ds, feq d m = false) → c.max ∈ ds ∧ feq c.max m = false ∧
      ∀ d ∈ ds, feq d m = false → fkey d ≤ fkey c.max

theorem StatInv.init (m : Word) (c : Codec) (h0 : c.missing = m) (h1 : c.min = m) (h2 : c.max = m)
    (h3 : c.hasMissing = 0) : StatInv m [] c := by
  constructor <;> simp_all

theorem StatInv.step {m : Word} {ds : List Word} {c : Codec} (hm : isNaN m = false)
    (hds : ∀ d ∈ ds, isNaN d = false) (d : Word) (hd : isNaN d = false) (h : StatInv m ds c) :
    StatInv m (ds ++ [d]) (c.gatherBase d) := by
  unfold Codec.gatherBase
  rw [h.missing]
  by_cases hdm : feq d m = true
  · rw [if_pos hdm]
    refine ⟨rfl, ?_, by simp, ?_, ?_, ?_⟩
    · simp only [ne_eq]
      constructor
      · intro _; exact ⟨d, by simp, hdm⟩
      · intro _; decide
    · intro hall
      exact h.none (fun x hx => hall x (by simp [hx]))
    · rintro ⟨x, hx, hxm⟩
      have hxd : x ∈ ds := by
        rcases List.mem_append.mp hx with h' | h'
        · exact h'
        · simp at h'; subst h'; rw [hdm] at hxm; simp at hxm
      obtain ⟨a, b, e⟩ := h.minmem ⟨x, hxd, hxm⟩
      refine ⟨by simp [a], b, ?_⟩
      intro y hy hym
      rcases List.mem_append.mp hy with h' | h'
      · exact e y h' hym
      · simp at h'; subst h'; rw [hdm] at hym; simp at hym
    · rintro ⟨x, hx, hxm⟩
      have hxd : x ∈ ds := by
        rcases List.mem_append.mp hx with h' | h'
        · exact h'
        · simp at h'; subst h'; rw [hdm] at hxm; simp at hxm
      obtain ⟨a, b, e⟩ := h.maxmem ⟨x, hxd, hxm⟩
      refine ⟨by simp [a], b, ?_⟩
      intro y hy hym
      rcases List.mem_append.mp hy with h' | h'
      · exact e y h' hym
      · simp at h'; subst h'; rw [hdm] at hym; simp at hym
  · have hdm' : feq d m = false := by simpa using hdm
    rw [if_neg hdm]
    refine ⟨rfl, ?_, h.has01, ?_, ?_, ?_⟩
    · constructor
      · intro h'
        obtain ⟨x, hx, hxm⟩ := h.has.mp h'
        exact ⟨x, by simp [hx], hxm⟩
      · rintro ⟨x, hx, hxm⟩
        rcases List.mem_append.mp hx with h' | h'
        · exact h.has.mpr ⟨x, h', hxm⟩
        · simp at h'; subst h'; exact absurd hxm hdm
    · intro hall
      exact absurd (hall d (by simp)) hdm
    · intro _
      by_cases hex : ∃ x ∈ ds, feq x m = false
      · obtain ⟨a, b, e⟩ := h.minmem hex
        have hmin : isNaN c.min = false := hds _ a
        simp only [b, Bool.or_false]
        by_cases hlt : fkey d < fkey c.min
        · have : flt d c.min = true := by simp [flt, hd, hmin, hlt]
          rw [if_pos this]
          refine ⟨by simp, hdm', ?_⟩
          intro y hy hym
          rcases List.mem_append.mp hy with h' | h'
          · have := e y h' hym; omega
          · simp at h'; subst h'; exact Int.le_refl _
        · have : ¬ (flt d c.min = true) := by simp [flt, hd, hmin]; omega
          rw [if_neg this]
          refine ⟨by simp [a], b, ?_⟩
          intro y hy hym
          rcases List.mem_append.mp hy with h' | h'
          · exact e y h' hym
          · simp at h'; subst h'; omega
      · have hall : ∀ x ∈ ds, feq x m = true := by
          intro x hx
          cases hxm : feq x m with
          | true => rfl
          | false => exact absurd ⟨x, hx, hxm⟩ hex
        have := (h.none hall).1
        simp only [this, feq_self hm, Bool.or_true, if_true]
        refine ⟨by simp, hdm', ?_⟩
        intro y hy hym
        rcases List.mem_append.mp hy with h' | h'
        · rw [hall y h'] at hym; simp at hym
        · simp at h'; subst h'; exact Int.le_refl _
    · intro _
      by_cases hex : ∃ x ∈ ds, feq x m = false
      · obtain ⟨a, b, e⟩ := h.maxmem hex
        have hmax : isNaN c.max = false := hds _ a
        simp only [b, Bool.or_false]
        by_cases hlt : fkey c.max < fkey d
        · have : flt c.max d = true := by simp [flt, hd, hmax, hlt]
          rw [if_pos this]
          refine ⟨by simp, hdm', ?_⟩
          intro y hy hym
          rcases List.mem_append.mp hy with h' | h'
          · have := e y h' hym; omega
          · simp at h'; subst h'; exact Int.le_refl _
        · have : ¬ (flt c.max d = true) := by simp [flt, hd, hmax]; omega
          rw [if_neg this]
          refine ⟨by simp [a], b, ?_⟩
          intro y hy hym
          rcases List.mem_append.mp hy with h' | h'
          · exact e y h' hym
          · simp at h'; subst h'; omega
      · have hall : ∀ x ∈ ds, feq x m = true := by
          intro x hx
          cases hxm : feq x m with
          | true => rfl
          | false => exact absurd ⟨x, hx, hxm⟩ hex
        have := (h.none hall).2
        simp only [this, feq_self hm, Bool.or_true, if_true]
        refine ⟨by simp, hdm', ?_⟩
        intro y hy hym
        rcases List.mem_append.mp hy with h' | h'
        · rw [hall y h'] at hym; simp at hym
        · simp at h'; subst h'; exact Int.le_refl _

theorem StatInv.foldl {m : Word} (hm : isNaN m = false) (es ds : List Word) (c : Codec)
    (hds : ∀ d ∈ ds, isNaN d = false) (hes : ∀ d ∈ es, isNaN d = false) (h : StatInv m ds c) :
    StatInv m (ds ++ es) (es.foldl Codec.gatherBase c) := by
  induction es generalizing ds c with
  | nil => simpa using h
  | cons e es ih =>
    have h1 := h.step hm hds e (hes e (by simp))
    have h2 := ih (ds ++ [e]) (c.gatherBase e)
      (by intro d hd
          rcases List.mem_append.mp hd with h' | h'
          · exact hds d h'
          · simp at h'; subst h'; exact hes d (by simp))
      (fun d hd => hes d (by simp [hd])) h1
    simpa using h2

/-- `StatInv` only looks at the statistics. -/
theorem StatInv.congr {m : Word} {ds : List Word} {c c' : Codec} (h : StatInv m ds c)
    (h1 : c'.missing = c.missing) (h2 : c'.hasMissing = c.hasMissing) (h3 : c'.min = c.min)
    (h4 : c'.max = c.max) : StatInv m ds c' := by
  obtain ⟨a1, a2, a3, a4, a5, a6⟩ := h
  constructor
  · rw [h1]; exact a1
  · rw [h2]; exact a2
  · rw [h2]; exact a3
  · rw [h3, h4]; exact a4
  · rw [h3]; exact a5
  · rw [h4]; exact a6

@[simp] theorem gatherBase_kind (c : Codec) (v : Word) : (c.gatherBase v).kind = c.kind := by
  unfold Codec.gatherBase; split <;> rfl
@[simp] theorem gatherBase_vt (c : Codec) (v : Word) : (c.gatherBase v).vt = c.vt := by
  unfold Codec.gatherBase; split <;> rfl
@[simp] theorem gatherBase_width (c : Codec) (v : Word) : (c.gatherBase v).width = c.width := by
  unfold Codec.gatherBase; split <;> rfl
@[simp] theorem gatherBase_strings (c : Codec) (v : Word) : (c.gatherBase v).strings = c.strings := by
  unfold Codec.gatherBase; split <;> rfl

/-- All statistics of a column. -/
def Codec.gatherAll (c : Codec) (cells : List Cell) : Codec := cells.foldl Codec.gather c

theorem gatherAll_int32 (c : Codec) (cells : List Cell) (hk : c.kind = .int32) :
    c.gatherAll cells = (cells.map (fun x => toDbl c.vt (cellWord x))).foldl Codec.gatherBase c := by
  unfold Codec.gatherAll
  induction cells generalizing c with
  | nil => rfl
  | cons x xs ih =>
    have : c.gather x = c.gatherBase (toDbl c.vt (cellWord x)) := by unfold Codec.gather; rw [hk]
    simp only [List.foldl_cons, List.map_cons, this]
    rw [ih _ (by simp [hk])]
    simp

/-- For the long_real codec the statistics are those of the base plus the two flags. -/
theorem gatherAll_longReal (c : Codec) (cells : List Cell) (hk : c.kind = .longReal) :
    let c' := c.gatherAll cells
    let b := (cells.map cellWord).foldl Codec.gatherBase c
    c'.kind = .longReal ∧ c'.missing = b.missing ∧ c'.hasMissing = b.hasMissing ∧ c'.min = b.min ∧
    c'.max = b.max ∧
    c'.srFlag = (c.srFlag || cells.any (fun x => feq (cellWord x) (widen minFloat))) ∧
    c'.sr2Flag = (c.sr2Flag || cells.any (fun x => feq (cellWord x) (widen maxFloat))) ∧
    c'.vt = c.vt ∧ c'.width = c.width ∧ c'.strings = c.strings := by
  have key : ∀ (cells : List Cell) (c b : Codec), c.kind = .longReal → c.missing = b.missing →
      c.hasMissing = b.hasMissing → c.min = b.min → c.max = b.max →
      let c' := c.gatherAll cells
      let b' := (cells.map cellWord).foldl Codec.gatherBase b
      c'.kind = .longReal ∧ c'.missing = b'.missing ∧ c'.hasMissing = b'.hasMissing ∧ c'.min = b'.min ∧
      c'.max = b'.max ∧
      c'.srFlag = (c.srFlag || cells.any (fun x => feq (cellWord x) (widen minFloat))) ∧
      c'.sr2Flag = (c.sr2Flag || cells.any (fun x => feq (cellWord x) (widen maxFloat))) ∧
      c'.vt = c.vt ∧ c'.width = c.width ∧ c'.strings = c.strings := by
    intro cells
    induction cells with
    | nil => intro c b h0 h1 h2 h3 h4; simp [Codec.gatherAll, h0, h1, h2, h3, h4]
    | cons x xs ih =>
      intro c b h0 h1 h2 h3 h4
      have hg : c.gather x =
          { c.gatherBase (cellWord x) with
            srFlag := c.srFlag || feq (cellWord x) (widen minFloat)
            sr2Flag := c.sr2Flag || feq (cellWord x) (widen maxFloat) } := by
        unfold Codec.gather; rw [h0]; simp only [Codec.gatherBase]; split <;> rfl
      have hh := ih (c.gather x) (b.gatherBase (cellWord x))
        (by rw [hg]; simp [h0])
        (by rw [hg]; simp only [Codec.gatherBase, h1, h3, h4]; split <;> simp [h1])
        (by rw [hg]; simp only [Codec.gatherBase, h1, h3, h4]; split <;> simp [h2])
        (by rw [hg]; simp only [Codec.gatherBase, h1, h3, h4]; split <;> simp [h3])
        (by rw [hg]; simp only [Codec.gatherBase, h1, h3, h4]; split <;> simp [h4])
      simp only [Codec.gatherAll, List.foldl_cons, List.map_cons, List.any_cons] at hh ⊢
      obtain ⟨e1, e2, e3, e4, e5, e6, e7, e8, e9, e10⟩ := hh
      refine ⟨e1, e2, e3, e4, e5, ?_, ?_, ?_, ?_, ?_⟩
      · rw [e6, hg]; simp [Bool.or_assoc]
      · rw [e7, hg]; simp [Bool.or_assoc]
      · rw [e8, hg]; simp
      · rw [e9, hg]; simp
      · rw [e10, hg]; simp
  exact key cells c c hk rfl rfl rfl rfl

end Verif
