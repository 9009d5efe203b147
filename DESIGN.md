# Formal model of ecmwf/odc in Lean 4 — design

The source in `/repo` (C++) is read as text; nothing is compiled or run.  The model and its proofs live in
`lean/Verif/*.lean`.  `properties.jsonl` lists the properties, `MANIFEST.json` the theorems claimed for each, and
`seeded/LOG.jsonl` the wrong programs the theorems were tested against.

A definition that models code carries a comment with the file and lines it models and the simplifications made
(`scripts/audit_docs.py` lists the definitions whose comment has no citation, `scripts/audit_cites.py MODULE` prints the
source lines behind every citation).  A definition whose comment cites no source line models no code: it is part of a
specification, a proof device (invariant, correspondence), a sample for a witness, or mathematics outside the repository
(IEEE-754, the C library, eckit).

## Modelling conventions

* A byte is `BitVec 8`, an 8-byte in-memory cell word ("double slot") is `BitVec 64`; the machine is
  little-endian (the only layout the library is tested on); files of the other order are covered by
  the `other` byte order parameter.
* A C++ exception / failed `ASSERT` is an `Except Err` error.  Undefined behaviour (out-of-range
  double→integer cast, out-of-bounds table index, use after delete, …) is the distinct error `Err.ub`, so a theorem
  that says "returns `.ok`" also says that no undefined behaviour happened.
* IEEE-754 doubles/floats are modelled on bit patterns: a finite magnitude is a natural number of units
  of 2^-1074 (2^-149), comparison is comparison of integers, conversion, addition, subtraction and division are exact
  integer operations followed by an explicit round-to-nearest-even.  There are no axioms about floats.
* MD5 is an arbitrary function `md5 : List Byte → List Byte` with 32-byte (hex) results (eckit's
  implementation is outside the repository).  Where a theorem needs that two inputs have different digests it says so.
* Files are `List Byte`; `eckit::DataHandle` is a file and a position, with an `estimate()` that may be 0 ("unknown").
* Threads are interleavings of atomic steps; atomicity follows the mutexes in the code.
* Memory from `new double[]` is an arbitrary function (`Junk`), so nothing may depend on it.
* A user's view of data is the type `Vals` (`Spec.lean`, `ApiCol.lean`): a column of optional integers, bitfields, reals,
  doubles or strings.  `UTable` is a table of such columns.  The specifications speak about these, not about codecs.
* Process-wide settings are parameters: `Env.asDbl` (`integersAsDoubles`), `Env.longEnv`
  (`$ODC_ENABLE_WRITING_LONG_STRING_CODEC`), `Env.version` (library version).  The missing values are at their defaults.

## Per-property plan

Each property is stated in a `Prop*.lean` module (or at the end of the module named), with a concrete case that meets its
hypotheses beside it.

| id | what is modelled | how it is proved |
|----|-------|-------|
| C01–C05, C28 | codecs, `gatherStats`, `setOptimalCodecs` on bit patterns (`Codec`, `Stats`, `ColInt`, `ColReal`, `ColStr`) | induction over the value list for the statistics, case split on the chosen codec, a round trip lemma for each codec |
| C06, C07 | `encodeFrame`, `Table::decode` with row markers and lazily filled strided targets (`Frame`, `Encode`, `Table`) | loop invariant relating "last decoded row and pending fill" to the reference table; lookup by name |
| C08 | the chunk loop of `api::encode` (`Chunks`) | strong induction on the remaining rows |
| C09, C19, C37, C38 | `DataStream`, `Column`, `MetaData`, `Header` writers and readers in both byte orders (`Bytes`, `CodecSer`, `Header`, `HeaderSer`) | `parse (write x ++ rest) = ok (x, rest)` for every piece, composed |
| C10, C11 | header checks, `readTable`, `ensureTable` (`Header`, `Reader`) | case analysis of every altered byte and every prefix |
| C12–C14, C18, C36 | `TablesReader`, `ReaderImpl::next`, `FrameImpl` (`Reader`, `FrameApi`) | induction over the file and the table list |
| C15, C16 | the worker loop and the shared handle as transition systems (`Workers`, `Threads`, `Shared`) | invariants over all interleavings; a measure for termination |
| C36, threads | iterators of several threads with the mutex, `emplace_back` and the unlocked `getTable` as separate steps (`TabThreads`) | invariant over all schedules, a measure for progress |
| C17 | `Table::span`, `decodeSpan`, `Span` (`Span`, `SpanTop`) | consequence of the row invariant; sets as sorted lists |
| C20, C21, C43 | `WriterBufferingIterator`, `ReaderIterator` (`RowWriter`, `RowReader`) | induction over rows with an invariant on buffer, frames written and codecs; counterexamples for C21 |
| C22, C23, C41 | `fill_in_decoder`, `odc_decode`, `fill_in_encoder`, `odc_encode` with addresses (`CApi`, `CDecode`, `CEncode`) | arithmetic of disjoint ranges, then C06 |
| C24 | `columnNameMatches`, `hasColumn`, `columnIndex`, `columnLookup` (`Names`, `Table`) | induction over the columns |
| C25, C42 | `wrapApiFunction`, the frame functions of the C API as a machine over histories (`CFrames`) | induction over the history |
| C26 | the retry loop of `serializeHeaderInternal` (`HeaderSer`) | well-founded induction on the missing room |
| C27 | `gatherStats`, the statistics in the header (`Stats`, `PropStats`) | induction |
| C29 | `Table::decode` on arbitrary bytes, with the extent of what is read and written (`Safe`, `SafeLocal`) | the frame invariant for safety instead of contents; counterexample for row markers |
| C30 | `WriterDispatchingIterator`, `TemplateParameters` over a file system (`Dispatch*`) | invariant relating open writers, closed files and the rows seen |
| C31 | `SplitTool::getChunks` (`Split`) | invariant of the loop; counterexample |
| C32 | `MergeTool` over `Reader` and `Writer` (`Fill`, `Merge`) | induction over rows |
| C33 | `Indexer`; the SQL engine's `select seqno` is a parameter (`Index`) | run-length lemma, then C20 |
| C34 | `Comparator` (`Tolerance`, `Compare`) | exact arithmetic of the tolerance; induction over rows |
| C35 | `TextReaderIterator` and the import loop; number parsing of eckit is a parameter (`Csv*`) | `split (join …)` lemmas, then induction over lines; segments where a column grows |
| C39 | the encoder with duplicate names (`PropDup`) | equivalence; counterexamples |
| C40 | `IteratorProxy` reference counts (`Proxy`) | refinement of a world without counts |
| C44 | `WriterBufferingIterator::pass1` over a `Reader` (`Pass1`, `Runs`) | induction over the runs of frames with the same columns |
| C45 | the whole read path on arbitrary bytes (`Arbitrary`, `PropAny`, `PropAny2`; no new model) | parsers take prefixes and fail only with reported errors, except where a dictionary index is negative; positions of successive headers increase by at least 57; induction over the reading loop; `decode_safe` table by table |
| C46 | row reader and table decoder on arbitrary bytes (`RowAny`, `Agree`, `RowFile`, `PropAgree`; no new model) | the two decoders simulate each other row by row (`rows_alike`), the only difference being what the row buffer holds before the first row; tables without rows are passed over (`load_any`) |
| C47 | row writer against frame reader (`RowBack`, `PropBack`; no new model) | the row buffer's decoder and the table decoder agree on frames that the writer makes (`it_exact`, `frame_back`), lifted to files (`file_back`) and to joined frames with `C14_concatenates` and `C13_aggregation` |
| C48 | `RowsCounter::fastRowCount`, `CountTool` (`Count`) | the loop visits the tables of `Scan` in order (`countLoop_scan`), which is what the frame reader, the row reader (`C46_same_rows`) and the writers (`file_scan`, `written_tables`) are proved about |
| C49 | `MDSetTool` (`MdSet`), inversion of the header parser (`HeaderAny`) | headers read from any bytes are within the format and load again alike (`parse_headerOk`); the loop visits the tables of `Scan`; the new frames are raw frames of a file (`scan_fileOf`); values: the decoders of the old and new codec run in lock step (`MdCodec.dec`, relational parser lemmas) |
| C50 | `ReaderIterator` (`RowReader`) on arbitrary bytes | invariant of the iterator (cells fit the columns, codecs sane); bytes consumed give the measure `RowIt.ahead`; an empty long constant string is located in the bytes with `C45_header_accepted` |
| C51 | `SetTool`, `ODAUpdatingIterator` on top of the row reader, `pass1` of the writer | the updating iterator maps the rows of each table (`RowsAre`) to those of the table with the columns set; then C44 |
| C52 | `filter`: table, table iterator and output between the row reader, the SQL engine and `pass1`; the engine is a parameter | the rows of the answer on each table are the rows of a table (`RowsAre`); then C44; on encoded files the answers agree because the reader only narrows strings |
| C53 | `ODAOutput` between the table iterator and a writer: columns declared from the first table, widened with `flushAndResetColumnSizes` later, rows stored value by value | simulation: the writer is at every moment in the state in which `pass1` (C44) over the rows put out so far would be (`Follows`), with the columns as wide as in the widest table so far; completeness by unfolding |
| C54 | `pass1` of the dispatching writer: on a change of columns the template is parsed again and every open output is flushed and given the new columns | the invariant of C30 over segments of the input (`DInv`): each open writer is, but for earlier frames and a possibly larger buffer (`Roomy`), a writer that has taken the rows of the current segment only; completeness by unfolding |
| C55 | `odccapi.cc`: calls on a write iterator as a list of `OldCall`s over the row writer of C20, `get_next_row` over the row reader with the client's array as a list of words (writing behind its end is `.ub`), `odb_count`, `get_blocks_offsets` over the table iterator of C48 | writing: the calls leave the writer in the state of C20's writer (`decls_ok`, `rows_ok`), the texts with colons are parsed back (`texts_back`); reading: coinduction-like predicate `Delivers` shown by induction over the rows of `readRows`; offsets: the flattened row cut at sums of widths (`cell_at`) |
| C56 | the calls on an encoder as an inductive type, `Enc.calls` runs any list of them and returns the accepted ones (`CSession`) | an invariant between the encoder and the accepted calls (`Enc.Is`), kept by each call; then C23, C08 |
| C57 | the file format reference transcribed as a specification without the model (`DocSpec`), the encoder of C01 | each codec's header and codes written as documented (`DocCodec`, `DocEnc`), then rows by induction; values through C02's cells; for `Writer` the columns a first row leaves out are shown to be missing in the document's sense (`PropDocWriter`) |
| C58 | the same specification, the reader and decoder of C01/C29 | a documented frame is a raw table (`DocFrame.rawDoc`), the decoder of C29 gives cells showing the documented values, by induction on rows |
| C59 | `FrameImpl::filter` (`frameFilter`): the encoded tables of the frame through the filter of C52, the output read with aggregation | the rows the engine hands to `pass1` (`filter_selects`, from C52) are those of the answers stacked into one table; the frames written for them (`WFrames`) are read back as in C47 and have the same shape, so C13 makes one frame of them |
| C60 | the calls on a decoder as an inductive type, `Dec.calls` runs any list of them and logs what they report (`CDecSession`); `fill_in_decoder` and `odc_decode` as for C22, C23 | the decoder equals the one a log describes (`Log.decoder`, built from the last thing said; induction over the calls); `fill_in_decoder` for mixed columns puts every word at `Dec.spot` (`fillIn_ready`), decoding is then the C++ decoder plus disjoint writes (`odcDecode_laid`); a filled decoder is a fixed point of `fill_in_decoder`, hence the later frames; values of plain and aggregated frames from `frame_decode` and C13 |
| C61 | `Select`/`SelectIterator` as a loop over the rows of the answer (`OldSelect`, sharing `selLoop` with C52), `RowView.isMissing`, and the old C functions `odb_select_iterator_*`, which pull one row at a time into memory of a fixed size (`selPull`, `selPut`) | rows and flags from the C52 induction, extended by what the output columns say about missing values; one pull yields the head of the loop (induction on the rows skipped); offsets by sums of widths; the bound by induction on the values of a row for every state |
| C62 | `CompactTool::run` and `FixedSizeRowTool::run` whole (copy, then `Comparator::compare` of original and copy), `CompareTool::run` as written | the copy's rows from C44, extended by exact missing flags (`FlagsTrue`, induction over the frames); the comparison loop by induction on the pairs of rows: column names, types and values agree, so only the assertion on `hasMissing` can fail; `C62_compare`: with the default options of `odc compare` missing values are recognised by the missing value the column reports, which every written column reports alike (`IsRow.mdi`), so the comparison always succeeds |
| C63 | `CommandLineParser` whole (lazy parsing, the loop, the maps, copies), `ImportTool::run` up to the SQL engine | a command line is the text of at most one list of things (induction), the loop collects them (induction); invariant of the parser over sessions of calls; import by C35 |
| C64 | `LSTool` whole (`printData`, `run`) | a cell from the row the reader shows (C23, C51), the line by induction on the columns, the loop by induction on the tables with the columns kept as invariant; the arguments by C63 |
| C65 | `ODAHeaderTool.cc` whole (the three printers, `run`), the text of the columns in the verbose listing a parameter | the loop over the tables of a scanned file (induction), positions from the layout of the frames, the list of kept columns as invariant of the DDL printer; cut files by the truncation theorem; the arguments by C63 |
| C66 | the constructors and first lines of `run` of `CompactTool`, `FixedSizeRowTool`, `CountTool`, `IndexTool`, `SetTool`, `MDSetTool`, `SplitTool`, `CompareTool`, `MergeTool` | the reading of the command line of C63, then cases on the number of parameters; lists by splitting what was joined |
| C67 | the constructor of `SQLTool`, `run` up to the statement, `SQLOutputConfig::buildOutput` | all questions answered by the reading of the command line of C63, then cases |
| C68 | `XYVTool.cc` whole, the answer of the statement a parameter | induction over the rows |

Properties the code violates outside some domain get theorems `…_violated…` proving the negation on a concrete witness
(run through the model by the kernel), and the positive theorem states the domain on which the property holds.

## Trusted base

* Lean's kernel, and in any theorem at most the axioms `propext`, `Classical.choice` and `Quot.sound`
  (`#print axioms`; `vcheck` replays all modules through the kernel).  No axioms of our own, no compiled evaluation.
* The faithfulness of the hand-written model to the C++ text, with the conventions above.
* The C++ implementation's own undefined and implementation-defined behaviour beyond what is modelled as `Err.ub`:
  conversions follow x86-64/IEEE-754 with round-to-nearest.

### Modelled

`core/`: `DataStream.h`, `Codec.{h,cc}`, `CodecFactory.h`, `Column.{h,cc}`, `MetaData.{h,cc}` (load, save, lookup,
`compatible`, `equals`, `+=`), `Header.cc`, `Encoder.cc`, `Table.{h,cc}`, `TablesReader.{h,cc}`, `Span.{h,cc}`,
`DecodeTarget.cc`, `ThreadSharedDataHandle.{h,cc}`.  `codec/`: `Integer.h`, `IntegerMissing.h`, `Real.h`, `Constant.h`,
`String.h`, `CodecOptimizer.h`.  `api/`: `Odb.cc` (reader, frame, decode, encode, span, import of text),
`odc.cc`, `StridedData.h`, `ColumnInfo.h`.  Top level: `WriterBufferingIterator`, `ReaderIterator`,
`WriterDispatchingIterator` (rows and `pass1`, not `verify`), `TemplateParameters`, `IteratorProxy.h`, `Comparator`, `Indexer`,
`csv/TextReaderIterator`.  `odccapi.cc`.  `tools/`: `MergeTool` (without SQL), `SplitTool` (`getChunks`, `split`), `CompactTool`, `FixedSizeRowTool`, `CompareTool::run`, `ImportTool::run`, `CommandLineParser`,
`CountTool`, `LSTool`, `HeaderTool`, `MDSetTool`, `SetTool` (`ODAUpdatingIterator`).  `sql/`: `TODATable`, `TODATableIterator`, `SQLSelectOutput`, `ODAOutput`, `Types`;
`Select`, `SelectIterator`, `api::filter`, `api::Frame::filter`.

### Not modelled

* The SQL engine (`eckit::sql`): C52 and C53 take as parameters the selected columns with titles, the columns the condition is about,
  an arbitrary condition on their values and missing flags, and the length the engine gives for a string; expressions,
  functions, `ORDER BY`, `DISTINCT`, joins and bitfield members in queries are not covered.  `Index` takes the selected
  values as a parameter.  `sql/ODAOutput` with a template in the file name, `sql/TODATable` insertion.
* eckit: data handles, `StringTools`, `Translator`, MD5, resources; where they matter they are parameters or given by their
  documented meaning.  Buffering of stdio handles is not modelled: bytes written are in the file.
* `$ODC_DEFAULT_CODEC…` resources that change the default codecs (`CodecOptimizer.cc`), `MDI::realMDI(v)`/`integerMDI(v)`.
* A failure handler of the C API that does not return; a negative column-major width.
* `ODAHandle`, Fortran bindings, `RequestUtils`, the remaining command line tools.

## Findings

Behaviour of the code that contradicts what a user would expect; with the theorem that exhibits it where there is one.

1. 65536 columns or more: the row marker wraps and the frame cannot be decoded.
2. DOUBLE/REAL columns: NaN, ±0 and infinities next to missing values are lost or undefined (`C02_violated_*`).
3. Integers outside 32 bits are truncated (`C01_violated`).
4. REAL: −FLT_MAX and FLT_MIN together fail an assertion (`C03_violated_*`).
5. The row writer forgets a column's own missing value after the first flush (`C21_violated*`).
6. `span`: empty tables, long strings, repeated names, all-missing columns (`C17_violated_*`).
7. The aggregating reader drops valid frames in front of a corrupt table (`C11_violated_aggregated`); a table with more rows
   than the limit throws (`C13_over_limit`).
8. Handles with `estimate() = 0`: truncation is not detected by position.
9. C decoder and encoder: overlapping columns, preset sizes and strides, number of rows (`C22_violated_*`,
   `C23_violated_*`, `C41_violated_rows`); properties by index after copies and reads (`C42_violated_*`).
10. `encode` with a limit of 0 rows and a header buffer of 0 bytes never end (`C08_violated_zero`, `C26_violated_zero`).
11. Row markers beyond the number of columns read and write out of bounds (`C29_violated`).
12. Frames of the other byte order cannot be decoded through the API (`C09_violated_decode*`).
13. A string with the bytes of a NaN makes the row reader throw (`C04_violated_nan`).
14. Zero threads decode nothing (`C15_violated_zero`).
15. Version and byte order are not checked (`C10_violated_*`); bitfield offsets wrap (`C37_violated_wrap`).
16. Duplicate column names are encoded but cannot be decoded, and a failed lookup leaves a partial memo (`C39_violated*`).
17. Dispatching writer: `/` in a key removes too much, keys with equal integer part share a file, files of an earlier run may
    be appended to (`C30_violated_*`).
18. `MergeTool` copies eight bytes of a string (`C32_violated_strings`); `getChunks` loses a chunk (`C31_violated`);
    the index is wrong beyond 2 GB (`C33_violated`); the comparator accepts large differences (`C34_violated_*`).
19. CSV import: NULL strings become empty strings, integers become 0 with `integersAsDoubles = false`, blank lines end the
    import (`C35_violated_*`, `csv_refused`).
20. `pass1` drops bitfield definitions that change and all properties (`C44_violated_*`).
21. Assigning a null iterator handle dereferences it (`C40_violated`).
22. A negative index in a string dictionary of a header writes out of bounds on opening the file (`C45_violated_index`).
23. A header with a negative data size sends the reader backwards; it can deliver the same frame for ever (`C45_violated_loop`).
24. `Codec` copies forget `castedMissingValue_`: an integer column with its own missing value whose first rows are missing decodes to 2147483647 through frames and to the right value through rows (`C46_violated_missing`).
25. The row reader hands the whole row buffer to the decoder, not the part the current table filled: a table with too little data continues with rows of an earlier table instead of failing (`C46_violated_stale`).
26. A table with data but no rows is fine for frames and an assertion failure for rows (`C46_violated_norows`).
27. `mdset`: bitfield definitions are ignored, constant strings in long form keep their value, malformed assignments (`=`, `:`, `x:[a]`) read past the end of a vector (`C49_violated_*`); a refusal leaves a truncated output file (`C49_refused`).
28. Row reader: the size of an empty long constant string wraps to 2^61 words, so that the columns of the row buffer overlap and the last one lies outside it; the encoder writes such columns (`C50_violated_empty`).
29. `odc set`: the buffer of a row has one word per column and columns are addressed by position, not offset, so that files with strings of more than eight bytes are read out of bounds (`C51_violated_wide`); a file without rows gets a row (`C51_violated_norows`).
30. `filter`: the types of the columns are those of the first table of the file; values of a later table with another type are reinterpreted, 1.5 becomes 1 (`C52_violated_types`). Of two columns `k` and `k@t` the first cannot be selected (`C52_violated_exact`). With an empty query everything is copied and 0 rows are reported (`C52_violated_count`). Properties are not copied.
31. `odc sql -o`: with titles `k` (a string) and `k@t` a query works on each of two files and fails on their concatenation when the strings become wider, since the title is looked up as a column name and found ambiguous (`C53_violated_titles`). The same title twice is refused here but not by `filter` (`C53_violated_twice`), unless it is that of a bitfield; an empty title is refused when there is another column.
32. `odc split`: a key column that holds numbers in one table and strings in another puts two writers on one file, which overwrite each other (`C54_violated_kinds`). By reading, not proved: the verification after the split cannot fail, and compares the wrong files once more keys than `maxOpenFiles` have been seen.
33. Old C interface: `odb_read_iterator_get_next_row` copies a row of a later, wider table into an array of the size it gave for the first one (`C55_violated_buffer`); `odb_read_iterator_get_missing_value` accepts the number of columns as an index and reads behind the end of the columns (`C55_violated_index`); a table without rows leaves an empty file, its columns are lost (`C55_violated_empty`); with a wrong `count` the row is lost (in `C55_read`). By reading, not proved: `odb_create_write_iterator` opens its data handle twice and never closes it.
34. `TablesReader::getTable` accesses the vector of tables without the lock that `ensureTable` holds while it grows the vector: iterators over one reader in different threads race on every file of two or more tables (`C36_violated_race`).

35. The file format reference differs from the files the library writes and reads: `long_constant_string` is not described; the entries of a string list carry two more numbers (count and index); bitfield members are present only in columns of type BITFIELD and followed by their sizes; the marker of a row is big-endian in every file; flags and properties come before the columns, not after; digest and length in the fixed header are those of the rest of the header; the missing value of integers that the first row leaves out is 2147483647 whatever the header says (`DocSpec`, places marked DIFFERENCE, and `Col.Skippable`).
36. `Frame::filter` asserts that the result is one frame, which fails for results of more than 10000 rows with a string column whose longest strings differ in length from one output frame to the next (`C59_violated_strings`).
37. A C decoder used for a second frame keeps the memory of the first: after `odc_decoder_set_row_count` with a larger count the rows are written beyond the end of the array the decoder allocated (`C60_violated_rows`), and an array given after the first frame is ignored, the values go to the old one (`C60_violated_array`).
38. The select iterator of the old C interface sets the client's memory before a row is fetched, with the size of a row then; if the next row is the first of a table whose strings have another width, the assertion on the size fails although there is room (`C61_violated_width`). `odb_select_iterator_get_missing_value` lets the number of columns pass as an index (`C61_violated_index`).
39. `odc compact` and `odc fixed` report failure (an assertion) after a correct copy if some of the tables merged into one frame have missing values in a column and others have none (`C62_violated_missing`). In `odc compare` the option `-dontCheckMissing` is inverted: it turns the check on (`C62_violated_option`).
40. `odc import -d` has no effect unless `-sql` is given too: the text is always taken to be separated by commas (`C63_violated_delimiter`); with `-sql` a letter as delimiter is put into upper case (`C63_violated_case`). A copied `CommandLineParser` has no `argc_`, `argv_`.
41. `odc ls` prints quotes, tabulators and line ends in texts as they are, so that different tables have the same listing (`C64_violated_quotes`); columns that differ from the table before in nothing but the width of their strings get a second, identical heading.
42. `odc header -ddl` puts a comma after the last column of a table, does not tell tables apart that differ in the members of a bitfield only (`C65_violated_members`), defines the type of a bitfield again for every table printed, and prints nothing if a later table is incomplete (`C65_cut`).
43. `odc merge` without `-o` writes into a file named `<no-default>`, since the `UserError` is made but not thrown (`C66_violated_output`); with `-S` and a last file without statement it reads beyond the parameters (`C66_violated_statement`).
44. `odc sql -f ascii -o -` writes to a file named `-` (`C67_violated_stdout`; `-f odb -o -` writes to standard output), `-i -` and `-i stdin` are always refused (`C67_violated_stdin`), and `-length` is ignored without `-offset` (`C67_violated_length`).
45. `odc xyv` writes the latitude under the heading `x/long` and the longitude under `y/lat` (`C68_violated_headings`).
