{
 "claims": [
  {
   "property": "C01",
   "status": "proved",
   "theorems": [
    "Verif.C01_integers_exact",
    "Verif.C01_violated"
   ],
   "note": "All columns whose values are the missing value or within int32; C01_violated shows the silent truncation outside that range."
  },
  {
   "property": "C02",
   "status": "proved",
   "theorems": [
    "Verif.C02_doubles_exact",
    "Verif.C02_violated_nan",
    "Verif.C02_violated_zero",
    "Verif.C02_violated_missing_zero",
    "Verif.C02_violated_inf"
   ],
   "note": "Violations outside the stated domain are witnessed."
  },
  {
   "property": "C03",
   "status": "proved",
   "theorems": [
    "Verif.C03_reals_rounded",
    "Verif.C03_violated_lowest",
    "Verif.C03_violated_smallest"
   ],
   "note": "The clause the code violates (-FLT_MAX, FLT_MIN with FLT_MAX) is witnessed by the C03_violated theorems."
  },
  {
   "property": "C04",
   "status": "proved",
   "theorems": [
    "Verif.C04_strings_exact",
    "Verif.C04_violated_nan"
   ],
   "note": ""
  },
  {
   "property": "C05",
   "status": "proved",
   "theorems": [
    "Verif.C05_missing_iff",
    "Verif.C05_short_collision",
    "Verif.C05_violated_wide"
   ],
   "note": "Integers outside 32 bits may come back as missing (C05_violated_wide)."
  },
  {
   "property": "C06",
   "status": "proved",
   "theorems": [
    "Verif.C06_frame_round_trip"
   ],
   "note": ""
  },
  {
   "property": "C07",
   "status": "proved",
   "theorems": [
    "Verif.C07_projection",
    "Verif.C07_unknown",
    "Verif.C07_twice",
    "Verif.C07_short"
   ],
   "note": ""
  },
  {
   "property": "C08",
   "status": "proved",
   "theorems": [
    "Verif.C08_chunks",
    "Verif.C08_violated_zero"
   ],
   "note": "Limit 0 never ends (C08_violated_zero)."
  },
  {
   "property": "C09",
   "status": "proved",
   "theorems": [
    "Verif.C09_header",
    "Verif.C09_same_in_both_orders",
    "Verif.C09_frame",
    "Verif.C09_violated_decode",
    "Verif.C09_violated_decode_file"
   ],
   "note": "The header is read back in both orders; decoding the data of an other-endian frame through the public API always throws (C09_violated_decode)."
  },
  {
   "property": "C10",
   "status": "proved",
   "theorems": [
    "Verif.C10_accepted",
    "Verif.C10_altered",
    "Verif.C10_altered_digest",
    "Verif.C10_reader",
    "Verif.C10_violated_version",
    "Verif.C10_violated_order"
   ],
   "note": "Two alterations the code does not detect are witnessed."
  },
  {
   "property": "C11",
   "status": "proved",
   "theorems": [
    "Verif.C11_truncation",
    "Verif.C11_violated_aggregated"
   ],
   "note": ""
  },
  {
   "property": "C12",
   "status": "proved",
   "theorems": [
    "Verif.C12_enumerate",
    "Verif.C12_concatenation",
    "Verif.C12_concatenation_values"
   ],
   "note": ""
  },
  {
   "property": "C13",
   "status": "proved",
   "theorems": [
    "Verif.C13_aggregation",
    "Verif.C13_determined",
    "Verif.C13_over_limit"
   ],
   "note": ""
  },
  {
   "property": "C14",
   "status": "proved",
   "theorems": [
    "Verif.C14_concatenates",
    "Verif.C14_rows_partition"
   ],
   "note": ""
  },
  {
   "property": "C15",
   "status": "proved",
   "theorems": [
    "Verif.C15_threads",
    "Verif.C15_terminates",
    "Verif.C15_once",
    "Verif.C15_own_rows",
    "Verif.C15_violated_zero",
    "Verif.C15_c_threads",
    "Verif.C15_c_terminates"
   ],
   "note": "Interleavings of atomic steps; C++ memory-model races are not expressible."
  },
  {
   "property": "C16",
   "status": "proved",
   "theorems": [
    "Verif.C16_shared_handle",
    "Verif.C16_copy"
   ],
   "note": ""
  },
  {
   "property": "C17",
   "status": "proved",
   "theorems": [
    "Verif.C17_span",
    "Verif.C17_violated_empty",
    "Verif.C17_violated_long",
    "Verif.C17_violated_twice",
    "Verif.C17_violated_missing"
   ],
   "note": "For frames of tables with rows written by the encoder, each column asked for by one name, with ODC_ENABLE_WRITING_LONG_STRING_CODEC unset; the C17_violated theorems show what goes wrong outside."
  },
  {
   "property": "C18",
   "status": "proved",
   "theorems": [
    "Verif.C18_tiling"
   ],
   "note": ""
  },
  {
   "property": "C19",
   "status": "proved",
   "theorems": [
    "Verif.C19_properties",
    "Verif.C19_first_table"
   ],
   "note": ""
  },
  {
   "property": "C20",
   "status": "proved",
   "theorems": [
    "Verif.C20_rows",
    "Verif.C20_violated_carry"
   ],
   "note": "For whole rows handed to writeRow. Rows set value by value with data(i)/next() depend on the buffer size: C20_violated_carry."
  },
  {
   "property": "C21",
   "status": "proved",
   "theorems": [
    "Verif.C21_missing",
    "Verif.C21_violated",
    "Verif.C21_violated_int"
   ],
   "note": "The loss of the setting at the first flush is part of the statement; C21_violated shows values being corrupted by it."
  },
  {
   "property": "C22",
   "status": "proved",
   "theorems": [
    "Verif.C22_layout",
    "Verif.C22_violated_size",
    "Verif.C22_violated_overlap",
    "Verif.C22_violated_stride"
   ],
   "note": "For columns given neither memory nor size; the C22_violated theorems show the overlap for columns given only a size."
  },
  {
   "property": "C23",
   "status": "proved",
   "theorems": [
    "Verif.C23_decode",
    "Verif.C23_transposed",
    "Verif.C23_encode",
    "Verif.C23_norows",
    "Verif.C23_violated_rows",
    "Verif.C23_violated_width",
    "Verif.C23_encode_columns",
    "Verif.C23_encode_nodata",
    "Verif.C23_decode_columns",
    "Verif.C23_decode_table_columns",
    "Verif.C23_decode_defaults"
   ],
   "note": "Row count of the decoder equal to the height of a column-major array, column-major width dividing the sizes; outside, see C23_violated."
  },
  {
   "property": "C24",
   "status": "proved",
   "theorems": [
    "Verif.C24_column_index",
    "Verif.C24_decode_lookup",
    "Verif.C24_violated_ambiguous"
   ],
   "note": "Simple-name decode takes the first of several matches where columnIndex reports ambiguity; witnessed."
  },
  {
   "property": "C25",
   "status": "proved",
   "theorems": [
    "Verif.C25_codes",
    "Verif.C25_iteration",
    "Verif.C25_mode_of_first"
   ],
   "note": "Failure handler assumed to return."
  },
  {
   "property": "C26",
   "status": "proved",
   "theorems": [
    "Verif.C26_buffer_size",
    "Verif.C26_other_order",
    "Verif.C26_violated_zero",
    "Verif.C26_violated_other"
   ],
   "note": "Size 0 never ends; in the other byte order a constant string column may be written with its bytes reversed, depending on the size (C26_violated_other)."
  },
  {
   "property": "C27",
   "status": "proved",
   "theorems": [
    "Verif.C27_statistics"
   ],
   "note": ""
  },
  {
   "property": "C28",
   "status": "proved",
   "theorems": [
    "Verif.C28_integer_width",
    "Verif.C28_real_width",
    "Verif.C28_string_width",
    "Verif.C28_accepts"
   ],
   "note": ""
  },
  {
   "property": "C29",
   "status": "proved",
   "theorems": [
    "Verif.C29_reads",
    "Verif.C29_safe",
    "Verif.C29_extent",
    "Verif.C29_overwritten",
    "Verif.decodeTable_exact",
    "Verif.C29_violated"
   ],
   "note": "Arbitrary data sections; the one case in which the decoder leaves defined behaviour (a row marker beyond the number of columns followed by a smaller one) is excluded and witnessed by C29_violated. Integer columns must not need casts outside int64 (Codec.Sane, shown for all encoded tables with 32-bit integers)."
  },
  {
   "property": "C30",
   "status": "proved",
   "theorems": [
    "Verif.C30_dispatch",
    "Verif.C30_names",
    "Verif.C30_violated_slash",
    "Verif.C30_violated_fraction",
    "Verif.C30_violated_ints",
    "Verif.C30_violated_stale",
    "Verif.C30_violated_wide",
    "Verif.C30_violated_long"
   ],
   "note": "C30_dispatch: rows of a table through a dispatching writer, any number of open files. Domain: dispatch columns are whole numbers that fit an int (integers held as doubles) or printable strings of at most 8 bytes without slash, before any wider column, and different values give different names (C30_names: true if the byte after each placeholder occurs in no value). Outside it rows are lost or misplaced (C30_violated_*), and old content of files survives (C30_violated_stale). One schema: pass1 over files with a change of columns is not modelled. The stdio buffer of the handles is not modelled."
  },
  {
   "property": "C31",
   "status": "proved",
   "theorems": [
    "Verif.C31_chunks",
    "Verif.C31_violated"
   ],
   "note": "The property as stated is false when the first table alone exceeds the limit and the rest does not (C31_violated); C31_chunks gives the result in both cases. Files of which every table announces a non-negative size; total expanded size below 2^64."
  },
  {
   "property": "C32",
   "status": "proved",
   "theorems": [
    "Verif.C32_merge",
    "Verif.C32_clash",
    "Verif.C32_any",
    "Verif.C32_unreadable",
    "Verif.encode_readsAs",
    "Verif.C32_violated_strings"
   ],
   "note": "C32_any: arbitrary byte strings, if no error is reported the inputs were read as far as the rows joined, the shortest to its end. C32_merge: inputs read row by row as tables Ts (ReadsAs; encode_readsAs gives it for files of encode) are merged into exactly the file the row writer makes of the columns side by side in the rows of the shortest input, and that file is read back as that table; a clash of names is refused (C32_clash). True for strings of at most 8 bytes; longer ones are cut (C32_violated_strings)."
  },
  {
   "property": "C33",
   "status": "proved",
   "theorems": [
    "Verif.C33_index",
    "Verif.blockRuns_runs",
    "Verif.Runs.unique",
    "Verif.IndexOf.unique",
    "Verif.C33_violated"
   ],
   "note": "C33_index: for every valid file the index holds, in order, exactly one entry per maximal run of equal sequence numbers in each block with the block's offset and length (IndexOf, which is a unique specification), and it is read back without loss while all fields are below 2^31. The SQL engine that evaluates 'select seqno' is a parameter. Beyond 2 GB the claim is false (C33_violated)."
  },
  {
   "property": "C34",
   "status": "proved",
   "theorems": [
    "Verif.C34_compare",
    "Verif.C34_tolerance",
    "Verif.C34_integers",
    "Verif.C34_self",
    "Verif.C34_violated_large",
    "Verif.C34_violated_inf",
    "Verif.C34_violated_i64"
   ],
   "note": "C34_compare characterises success of the comparison for arbitrary files, C34_tolerance what 'same' means for finite numbers, C34_self reflexivity for files of encode with finite values. Soundness is false for large integers and integers held as int64, reflexivity for infinities (C34_violated_*)."
  },
  {
   "property": "C35",
   "status": "proved",
   "theorems": [
    "Verif.C35_import",
    "Verif.C35_any",
    "Verif.csv_sample",
    "Verif.csv_values",
    "Verif.C35_violated_null",
    "Verif.C35_violated_ints",
    "Verif.csv_refused"
   ],
   "note": "The number parsers (strtod, strtol) and unQuote are parameters (CsvLib) constrained only on the texts that stand for a value; eckit's trim, split and upper-casing are modelled. With integersAsDoubles (the default). NULL strings are outside the domain: they come back as empty strings (C35_violated_null); with integersAsDoubles off integers come back wrong (C35_violated_ints); CRLF, empty cells and quoted delimiters are refused and everything after a blank line is dropped (csv_refused)."
  },
  {
   "property": "C36",
   "status": "proved",
   "theorems": [
    "Verif.C36_iterators",
    "Verif.C36_threads",
    "Verif.C36_no_race_after_pass",
    "Verif.C36_violated_race"
   ],
   "note": "C36_iterators: increments as atomic steps. C36_threads: threads with the mutex of ensureTable, emplace_back with a beginning and an end, getTable without a lock; true of every schedule up to the first data race. Such races exist for every file of two or more tables (C36_violated_race), but not after one iterator has reached its end (C36_no_race_after_pass)."
  },
  {
   "property": "C37",
   "status": "proved",
   "theorems": [
    "Verif.C37_bitfields",
    "Verif.C37_add_bitfield",
    "Verif.C37_violated_negative",
    "Verif.C37_violated_wrap"
   ],
   "note": ""
  },
  {
   "property": "C38",
   "status": "proved",
   "theorems": [
    "Verif.C38_streams",
    "Verif.C38_orders"
   ],
   "note": ""
  },
  {
   "property": "C39",
   "status": "proved",
   "theorems": [
    "Verif.C39_iff",
    "Verif.C39_duplicates",
    "Verif.C39_violated",
    "Verif.C39_violated_retry"
   ],
   "note": "C39_iff: an encoded table can be decoded exactly if its column names are distinct; encode accepts duplicates (C39_duplicates) and then no request can be decoded, so the natural claim is false (C39_violated); a second attempt on the same frame succeeds for early columns because the lookup is left half built (C39_violated_retry)."
  },
  {
   "property": "C40",
   "status": "proved",
   "theorems": [
    "Verif.C40_lifetime",
    "Verif.C40_violated"
   ],
   "note": "Programs that neither increment a null handle nor assign a null handle over one that holds an object; the latter is undefined behaviour (C40_violated)."
  },
  {
   "property": "C41",
   "status": "proved",
   "theorems": [
    "Verif.C41_reuse",
    "Verif.C41_again",
    "Verif.C41_violated_rows"
   ],
   "note": ""
  },
  {
   "property": "C42",
   "status": "proved",
   "theorems": [
    "Verif.C42_property_index",
    "Verif.C42_out_of_range",
    "Verif.C42_violated_range",
    "Verif.C42_violated_end",
    "Verif.C42_violated_copy",
    "Verif.C42_violated_copy_empty"
   ],
   "note": "For indices within range on a live frame; the C42_violated theorems show the histories in which the code reads through stale iterators."
  },
  {
   "property": "C43",
   "status": "proved",
   "theorems": [
    "Verif.C43_encode_rows"
   ],
   "note": "Tables with at least one row."
  },
  {
   "property": "C44",
   "status": "proved",
   "theorems": [
    "Verif.C44_complete",
    "Verif.C44_copied",
    "Verif.C44_compact",
    "Verif.C44_violated_bits",
    "Verif.C44_violated_props",
    "Verif.copy_sample",
    "Verif.copy_values",
    "Verif.copy_empty"
   ],
   "note": "C44_copied for any file whose rows are read as runs of tables, C44_compact for files of encode; the rows read back include which values are missing and the width of each column, and the missing flags of the copy are exact (FlagsTrue). Bitfield members of a later table are lost when only they differ (C44_violated_bits), frame properties are not copied (C44_violated_props), a file without rows is refused (copy_empty)."
  },
  {
   "property": "C45",
   "status": "proved",
   "theorems": [
    "Verif.C45_reading_defined",
    "Verif.C45_reading_ends",
    "Verif.C45_decoding_defined",
    "Verif.no_dictionary",
    "Verif.forward_of_scan",
    "Verif.C45_violated_index",
    "Verif.C45_violated_loop",
    "Verif.C45_header_accepted",
    "Verif.parse_headerOk"
   ],
   "note": "Two defects are excluded by hypothesis and exhibited: a string dictionary entry with a negative index is undefined behaviour (C45_violated_index), a negative data size makes the reader loop for ever (C45_violated_loop). Decoding also excludes the row markers of C29_violated and a total row count of 2^64. Memory exhaustion (a vector of 2^31 elements announced in a short header) is not modelled. Decoding: integers passed as doubles (the default)."
  },
  {
   "property": "C46",
   "status": "proved",
   "theorems": [
    "Verif.C46_same_rows",
    "Verif.agrees_of",
    "Verif.C46_violated_missing",
    "Verif.C46_violated_stale",
    "Verif.C46_violated_norows"
   ],
   "note": "Conditions (RowTable): a column, data exactly if rows, no empty long_constant_string (the row buffer offsets wrap), default missing value in integer columns the first row leaves out. Of a string of several words that the first row leaves out only the first word is initialised by either interface, so only that word is claimed equal (SameCell)."
  },
  {
   "property": "C47",
   "status": "proved",
   "theorems": [
    "Verif.C47_rows_as_frames",
    "Verif.C47_missing",
    "Verif.C47_rows_as_spans",
    "Verif.C47_one_frame"
   ],
   "note": "C47_one_frame asks for values of one word: string columns of several words may get another width in each frame, and such frames are not joined by the aggregating reader (example at the end of PropBack.lean). C47_missing: missing values of their own for reals and doubles only; integer columns with one are finding C46_violated_missing."
  },
  {
   "property": "C48",
   "status": "proved",
   "theorems": [
    "Verif.C48_count",
    "Verif.C48_count_shown",
    "Verif.C48_count_encoded",
    "Verif.C48_count_written",
    "Verif.C48_count_files",
    "Verif.C48_count_damaged"
   ],
   "note": "Counts are unsigned 64-bit numbers (the sums are taken modulo 2^64 in C48_count). The tool's printing is not modelled."
  },
  {
   "property": "C49",
   "status": "proved",
   "theorems": [
    "Verif.C49_mdset",
    "Verif.C49_values",
    "Verif.C49_refused",
    "Verif.mdEntry_bits",
    "Verif.C49_violated_bits",
    "Verif.C49_violated_empty",
    "Verif.C49_violated_long"
   ],
   "note": "The number parser of the standard library is a parameter. C49_values: integers passed as doubles (the default) and files in the byte order of the machine. Types change only with the default ODC_INTEGERS_AS_DOUBLES (or are not changed). Excluded and exhibited: bitfield definitions are ignored, long constant strings keep their value, some malformed assignments are undefined behaviour."
  },
  {
   "property": "C50",
   "status": "proved",
   "theorems": [
    "Verif.C50_rows_defined",
    "Verif.C50_rows_end",
    "Verif.blank_in",
    "Verif.C50_violated_empty"
   ],
   "note": "Integers passed as doubles (the default) for C50_rows_defined. Excluded by hypothesis on the bytes: a dictionary with a negative index (C45_violated_index), an empty long constant string (C50_violated_empty: the encoder itself writes one for a column of empty strings if ODC_ENABLE_WRITING_LONG_STRING_CODEC is set). Memory exhaustion is not modelled."
  },
  {
   "property": "C51",
   "status": "proved",
   "theorems": [
    "Verif.C51_set",
    "Verif.C51_set_encoded",
    "Verif.C51_accepted",
    "Verif.filled_ints",
    "Verif.filled_bits",
    "Verif.filled_reals",
    "Verif.filled_doubles",
    "Verif.filled_strings",
    "Verif.setParse_text",
    "Verif.C51_violated_wide",
    "Verif.C51_violated_norows"
   ],
   "note": "All columns one word wide (C51_violated_wide: otherwise memory is read out of bounds) and at least one row (C51_violated_norows: a row is invented). The translation of number texts is a parameter. Files whose consecutive tables with the same columns differ in bitfield members: see C44_violated_bits."
  },
  {
   "property": "C52",
   "status": "proved",
   "theorems": [
    "Verif.C52_filter",
    "Verif.C52_filter_encoded",
    "Verif.C52_complete",
    "Verif.C52_violated_types",
    "Verif.C52_violated_exact",
    "Verif.C52_violated_count"
   ],
   "note": "The SQL engine (eckit::sql) is outside odc: it enters as a parameter (selected columns with titles, columns of the condition, an arbitrary condition on their values and missing flags; string lengths as the engine counts them). Columns must have the same type in all tables (C52_violated_types), names must be unambiguous (C52_violated_exact), every table has rows."
  },
  {
   "property": "C53",
   "status": "proved",
   "theorems": [
    "Verif.C53_sql_file",
    "Verif.C53_sql_file_encoded",
    "Verif.C53_complete",
    "Verif.C53_violated_titles",
    "Verif.C53_violated_twice"
   ],
   "note": "As in C52 the SQL engine is a parameter and columns must have the same type in all tables. File names with template parameters (a DispatchingWriter) are not covered. Titles must not be empty and none may be taken for another (C53_violated_titles, C53_violated_twice). C53_complete has no assumption on the input."
  },
  {
   "property": "C54",
   "status": "proved",
   "theorems": [
    "Verif.C54_split",
    "Verif.C54_no_rows",
    "Verif.C54_complete",
    "Verif.C54_names",
    "Verif.C54_violated_kinds"
   ],
   "note": "C54_split is about any file whose rows, as the row reader shows them, are those of some tables (consecutive ones differing in a name, type or width); conditions on the key columns as in C30, and a key must be a number in all tables or a string in all (C54_violated_kinds). C54_names gives the hypothesis on names. C54_complete has no assumption on the input. The verification after the split and the sorting option (presortAndSplit, an SQL query) are not modelled."
  },
  {
   "property": "C55",
   "status": "proved",
   "theorems": [
    "Verif.C55_old_api",
    "Verif.C55_write",
    "Verif.C55_read",
    "Verif.C55_count",
    "Verif.C55_blocks",
    "Verif.C55_violated_buffer",
    "Verif.C55_violated_index",
    "Verif.C55_violated_empty"
   ],
   "note": "C55_old_api: sessions of writing and appending, read back through the interface alone (names, types, members, offsets, sizes, rows, new_dataset, return codes). The array must be large enough for the declared sizes: the size the interface gives is not enough (C55_violated_buffer). C55_write holds with missing values set by the client too; C55_read is about any bytes, with exceptions. The size of a member is parsed by atof, of which only its value on the decimal text of a number is assumed (OldLib.Ok). Integer arguments are natural numbers in the model. odb_select_* is not modelled."
  },
  {
   "property": "C56",
   "status": "proved",
   "theorems": [
    "Verif.C56_array",
    "Verif.C56_columns",
    "Verif.C56_accepts",
    "Verif.C56_round_trip",
    "Verif.oddCalls_described"
   ],
   "note": "Any calls from odc_new_encoder on; refused calls may come between. Counts, dimensions of the array and addresses are natural numbers. C56_round_trip takes the conclusion of C56_array or C56_columns as its hypothesis. Encoding a second time with the same encoder is C41."
  },
  {
   "property": "C57",
   "status": "proved",
   "theorems": [
    "Verif.C57_encoded_as_documented",
    "Verif.C57_written_as_documented"
   ],
   "note": "C57_written_as_documented: files written row by row with Writer, with the default missing values. The document is transcribed in DocSpec.lean, independently of the model; where existing files differ from its text the files were followed (finding 35: places marked DIFFERENCE). ODC_ENABLE_WRITING_LONG_STRING_CODEC off: the codec it switches on is not documented."
  },
  {
   "property": "C58",
   "status": "proved",
   "theorems": [
    "Verif.C58_documented_files_are_read",
    "Verif.C58_documented_rows"
   ],
   "note": "C58_documented_rows: the row interface, frames of either byte order. C58_documented_files_are_read: the frame interface, files in the byte order of the machine (others cannot be decoded there: C09_violated_decode). Distinct column names; fields within range (Frame.Valid); a first row leaves out only columns of numbers, and integer ones only if their missing value is 2147483647, which is what the library uses whatever the header says."
  },
  {
   "property": "C59",
   "status": "proved",
   "theorems": [
    "Verif.C59_frame_filter",
    "Verif.C59_encoded",
    "Verif.C59_violated_strings"
   ],
   "note": "C59_frame_filter: any frame, of one or several tables, whose answers have the same columns; C59_encoded: a frame of a file written by encode(). For any number of rows if the strings selected fit in a word each, otherwise up to the rows of one output frame (10000): beyond, C59_violated_strings shows an assertion failing."
  },
  {
   "property": "C60",
   "status": "proved",
   "theorems": [
    "Verif.C60_setup",
    "Verif.C60_decode",
    "Verif.C60_values",
    "Verif.oddDec_ready",
    "Verif.C60_violated_rows",
    "Verif.C60_violated_array"
   ],
   "note": "Any calls from odc_new_decoder on; refused calls may come between. Row counts, element sizes, strides and addresses are natural numbers. Columns may be mixed (memory of their own or in the array), excluding columns given a size but no memory (C22_violated_size). Raising the row count or giving another array after a frame was decoded is the violated part: C60_violated_rows, C60_violated_array."
  },
  {
   "property": "C61",
   "status": "proved",
   "theorems": [
    "Verif.C61_select",
    "Verif.C61_select_encoded",
    "Verif.C61_old",
    "Verif.C61_old_encoded",
    "Verif.C61_bounded",
    "Verif.C61_complete",
    "Verif.C61_violated_width",
    "Verif.C61_violated_index"
   ],
   "note": "Domain as for C52 (the engine as a parameter). C61_old: rows of all answers of one size (C61_old_encoded: one table, or no strings selected), since the old C iterator fails with an assertion at the first row of another size: C61_violated_width. C61_bounded: any bytes, any state of the iterator. C61_complete: any bytes, a loop that comes to its end has read the whole file."
  },
  {
   "property": "C62",
   "status": "proved",
   "theorems": [
    "Verif.C62_verify",
    "Verif.C62_compare",
    "Verif.C62_violated_missing",
    "Verif.C62_violated_option"
   ],
   "note": "The property as stated is false: the comparison asserts that columns say the same about having missing values, and a merged table has the flag if any of its parts has it (C62_violated_missing). C62_verify gives the outcome in every case (success exactly if the flags agree row by row, otherwise an assertion, never a difference). Conditions of C44_compact, finite numbers (NaN and infinities differ from themselves: C34_violated_inf). odc compare has its option inverted (C62_violated_option); without that option, and reading integers as doubles (the default), it accepts the file and its copy always, whatever is missing and whichever columns are excluded (C62_compare)."
  },
  {
   "property": "C63",
   "status": "proved",
   "theorems": [
    "Verif.C63_answers",
    "Verif.C63_import_plan",
    "Verif.C63_import",
    "Verif.C63_violated_delimiter",
    "Verif.C63_violated_case"
   ],
   "note": "C63_answers covers every command line, set of registered options and sequence of questions (text or translated arguments; the translator is a parameter). odc import: without -sql the option -d is ignored (C63_violated_delimiter); with -sql a letter as delimiter is put into upper case (C63_violated_case). The import with -sql is not modelled beyond the plan."
  },
  {
   "property": "C64",
   "status": "proved",
   "theorems": [
    "Verif.C64_ls",
    "Verif.C64_args",
    "Verif.C64_violated_quotes"
   ],
   "note": "Files written by encode, integers read as doubles (the default of the tool), every table with at least one row, REAL values being floats; the text of a double (std::fixed) is a parameter. The heading is repeated where the names, types or string widths the reader reports differ from the table before. Quotes and tabulators in texts are printed as they are (C64_violated_quotes)."
  },
  {
   "property": "C65",
   "status": "proved",
   "theorems": [
    "Verif.C65_header",
    "Verif.C65_cut",
    "Verif.C65_args",
    "Verif.C65_violated_members"
   ],
   "note": "Files written by encode, whole or cut at any byte (C65_cut: -offsets and -ddl). In the listing in words the text of the columns (MetaData::print, with the codecs) is a parameter. Tables are left out of the definitions if they have the columns of the table before by name, type and width; the members of bitfields are not compared (C65_violated_members). The definitions have a comma after the last column, as the code has."
  },
  {
   "property": "C66",
   "status": "proved",
   "theorems": [
    "Verif.C66_copy",
    "Verif.C66_count",
    "Verif.C66_index",
    "Verif.C66_update",
    "Verif.C66_split",
    "Verif.C66_compare",
    "Verif.C66_merge",
    "Verif.C66_violated_output",
    "Verif.C66_violated_statement"
   ],
   "note": "What compact, fixrowsize, count, index, set, mdset, split, compare and merge take from their command lines (the other tools: C63, C64, C65), in terms of the reading of the command line of C63. The translator of the number of open files, the statement read from a file and which files exist are parameters. odc merge without -o writes into a file named <no-default> (C66_violated_output); -S with a file lacking its statement reads beyond the parameters (C66_violated_statement)."
  },
  {
   "property": "C67",
   "status": "proved",
   "theorems": [
    "Verif.C67_sql",
    "Verif.C67_dest",
    "Verif.C67_violated_stdout",
    "Verif.C67_violated_stdin",
    "Verif.C67_violated_length"
   ],
   "note": "In terms of the reading of the command line of C63. The translator of numbers, which text is a select statement and the reading of files are parameters; C67_dest takes the output of a statement without INTO, which eckit asks of the configuration (an assumption), and a file name without a template. -f ascii -o - writes to a file named - (C67_violated_stdout); -i - is refused (C67_violated_stdin); -length without -offset is ignored (C67_violated_length). The option -I is accepted and ignored, as in the code."
  },
  {
   "property": "C68",
   "status": "proved",
   "theorems": [
    "Verif.C68_xyv",
    "Verif.C68_violated_headings"
   ],
   "note": "The statement's answer (Select, C52) and the text of a double are parameters. The latitude is written under the heading x/long and the longitude under y/lat (C68_violated_headings)."
  }
 ]
}
