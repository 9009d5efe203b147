CLAIMS = {
"C01": ("proved", ["C01_integers_exact", "C01_violated"], "All columns whose values are the missing value or within int32; C01_violated shows the silent truncation outside that range."),
"C02": ("proved", ["C02_doubles_exact", "C02_violated_nan", "C02_violated_zero", "C02_violated_missing_zero", "C02_violated_inf"], "Violations outside the stated domain are witnessed."),
"C03": ("proved", ["C03_reals_rounded", "C03_violated_lowest", "C03_violated_smallest"], "The clause the code violates (-FLT_MAX, FLT_MIN with FLT_MAX) is witnessed by the C03_violated theorems."),
"C04": ("proved", ["C04_strings_exact", "C04_violated_nan"], ""),
"C05": ("proved", ["C05_missing_iff", "C05_short_collision", "C05_violated_wide"], "Integers outside 32 bits may come back as missing (C05_violated_wide)."),
"C06": ("proved", ["C06_frame_round_trip"], ""),
"C07": ("proved", ["C07_projection", "C07_unknown", "C07_twice", "C07_short"], ""),
"C08": ("proved", ["C08_chunks", "C08_violated_zero"], "Limit 0 never ends (C08_violated_zero)."),
"C09": ("proved", ["C09_header", "C09_same_in_both_orders", "C09_frame", "C09_violated_decode", "C09_violated_decode_file"], "The header is read back in both orders; decoding the data of an other-endian frame through the public API always throws (C09_violated_decode)."),
"C10": ("proved", ["C10_accepted", "C10_altered", "C10_altered_digest", "C10_reader", "C10_violated_version", "C10_violated_order"], "Two alterations the code does not detect are witnessed."),
"C11": ("proved", ["C11_truncation", "C11_violated_aggregated"], ""),
"C12": ("proved", ["C12_enumerate", "C12_concatenation", "C12_concatenation_values"], ""),
"C13": ("proved", ["C13_aggregation", "C13_determined", "C13_over_limit"], ""),
"C14": ("proved", ["C14_concatenates", "C14_rows_partition"], ""),
"C15": ("proved", ["C15_threads", "C15_terminates", "C15_once", "C15_own_rows", "C15_violated_zero", "C15_c_threads", "C15_c_terminates"], "Interleavings of atomic steps; C++ memory-model races are not expressible."),
"C16": ("proved", ["C16_shared_handle", "C16_copy"], ""),
"C18": ("proved", ["C18_tiling"], ""),
"C19": ("proved", ["C19_properties", "C19_first_table"], ""),
"C26": ("proved", ["C26_buffer_size", "C26_other_order", "C26_violated_zero", "C26_violated_other"], "Size 0 never ends; in the other byte order a constant string column may be written with its bytes reversed, depending on the size (C26_violated_other)."),
"C36": ("proved", ["C36_iterators", "C36_threads", "C36_no_race_after_pass", "C36_violated_race"], "C36_iterators: increments as atomic steps. C36_threads: threads with the mutex of ensureTable, emplace_back with a beginning and an end, getTable without a lock; true of every schedule up to the first data race. Such races exist for every file of two or more tables (C36_violated_race), but not after one iterator has reached its end (C36_no_race_after_pass)."),
"C37": ("proved", ["C37_bitfields", "C37_add_bitfield", "C37_violated_negative", "C37_violated_wrap"], ""),
"C38": ("proved", ["C38_streams", "C38_orders"], ""),
"C24": ("proved", ["C24_column_index", "C24_decode_lookup", "C24_violated_ambiguous"], "Simple-name decode takes the first of several matches where columnIndex reports ambiguity; witnessed."),
"C27": ("proved", ["C27_statistics"], ""),
"C28": ("proved", ["C28_integer_width", "C28_real_width", "C28_string_width", "C28_accepts"], ""),
"C17": ("proved", ["C17_span", "C17_violated_empty", "C17_violated_long", "C17_violated_twice", "C17_violated_missing"], "For frames of tables with rows written by the encoder, each column asked for by one name, with ODC_ENABLE_WRITING_LONG_STRING_CODEC unset; the C17_violated theorems show what goes wrong outside."),
"C22": ("proved", ["C22_layout", "C22_violated_size", "C22_violated_overlap", "C22_violated_stride"], "For columns given neither memory nor size; the C22_violated theorems show the overlap for columns given only a size."),
"C23": ("proved", ["C23_decode", "C23_transposed", "C23_encode", "C23_norows", "C23_violated_rows", "C23_violated_width", "C23_encode_columns", "C23_encode_nodata", "C23_decode_columns", "C23_decode_table_columns", "C23_decode_defaults"], "Row count of the decoder equal to the height of a column-major array, column-major width dividing the sizes; outside, see C23_violated."),
"C41": ("proved", ["C41_reuse", "C41_again", "C41_violated_rows"], ""),
"C25": ("proved", ["C25_codes", "C25_iteration", "C25_mode_of_first"], "Failure handler assumed to return."),
"C42": ("proved", ["C42_property_index", "C42_out_of_range", "C42_violated_range", "C42_violated_end", "C42_violated_copy", "C42_violated_copy_empty"], "For indices within range on a live frame; the C42_violated theorems show the histories in which the code reads through stale iterators."),
"C20": ("proved", ["C20_rows", "C20_violated_carry"], "For whole rows handed to writeRow. Rows set value by value with data(i)/next() depend on the buffer size: C20_violated_carry."),
"C21": ("proved", ["C21_missing", "C21_violated", "C21_violated_int"], "The loss of the setting at the first flush is part of the statement; C21_violated shows values being corrupted by it."),
"C30": ("proved", ["C30_dispatch", "C30_names", "C30_violated_slash", "C30_violated_fraction", "C30_violated_ints", "C30_violated_stale", "C30_violated_wide", "C30_violated_long"], "C30_dispatch: rows of a table through a dispatching writer, any number of open files. Domain: dispatch columns are whole numbers that fit an int (integers held as doubles) or printable strings of at most 8 bytes without slash, before any wider column, and different values give different names (C30_names: true if the byte after each placeholder occurs in no value). Outside it rows are lost or misplaced (C30_violated_*), and old content of files survives (C30_violated_stale). One schema: pass1 over files with a change of columns is not modelled. The stdio buffer of the handles is not modelled."),
"C31": ("proved", ["C31_chunks", "C31_violated"], "The property as stated is false when the first table alone exceeds the limit and the rest does not (C31_violated); C31_chunks gives the result in both cases. Files of which every table announces a non-negative size; total expanded size below 2^64."),
"C40": ("proved", ["C40_lifetime", "C40_violated"], "Programs that neither increment a null handle nor assign a null handle over one that holds an object; the latter is undefined behaviour (C40_violated)."),
"C43": ("proved", ["C43_encode_rows"], "Tables with at least one row."),
"C34": ("proved", ["C34_compare", "C34_tolerance", "C34_integers", "C34_self", "C34_violated_large", "C34_violated_inf", "C34_violated_i64"], "C34_compare characterises success of the comparison for arbitrary files, C34_tolerance what 'same' means for finite numbers, C34_self reflexivity for files of encode with finite values. Soundness is false for large integers and integers held as int64, reflexivity for infinities (C34_violated_*)."),
"C33": ("proved", ["C33_index", "blockRuns_runs", "Runs.unique", "IndexOf.unique", "C33_violated"], "C33_index: for every valid file the index holds, in order, exactly one entry per maximal run of equal sequence numbers in each block with the block's offset and length (IndexOf, which is a unique specification), and it is read back without loss while all fields are below 2^31. The SQL engine that evaluates 'select seqno' is a parameter. Beyond 2 GB the claim is false (C33_violated)."),
"C32": ("proved", ["C32_merge", "C32_clash", "C32_any", "C32_unreadable", "encode_readsAs", "C32_violated_strings"], "C32_any: arbitrary byte strings, if no error is reported the inputs were read as far as the rows joined, the shortest to its end. C32_merge: inputs read row by row as tables Ts (ReadsAs; encode_readsAs gives it for files of encode) are merged into exactly the file the row writer makes of the columns side by side in the rows of the shortest input, and that file is read back as that table; a clash of names is refused (C32_clash). True for strings of at most 8 bytes; longer ones are cut (C32_violated_strings)."),
"C39": ("proved", ["C39_iff", "C39_duplicates", "C39_violated", "C39_violated_retry"], "C39_iff: an encoded table can be decoded exactly if its column names are distinct; encode accepts duplicates (C39_duplicates) and then no request can be decoded, so the natural claim is false (C39_violated); a second attempt on the same frame succeeds for early columns because the lookup is left half built (C39_violated_retry)."),
"C29": ("proved", ["C29_reads", "C29_safe", "C29_extent", "C29_overwritten", "decodeTable_exact", "C29_violated"], "Arbitrary data sections; the one case in which the decoder leaves defined behaviour (a row marker beyond the number of columns followed by a smaller one) is excluded and witnessed by C29_violated. Integer columns must not need casts outside int64 (Codec.Sane, shown for all encoded tables with 32-bit integers)."),
"C44": ("proved", ["C44_complete", "C44_copied", "C44_compact", "C44_violated_bits", "C44_violated_props", "copy_sample", "copy_values", "copy_empty"], "C44_copied for any file whose rows are read as runs of tables, C44_compact for files of encode; the rows read back include which values are missing and the width of each column, and the missing flags of the copy are exact (FlagsTrue). Bitfield members of a later table are lost when only they differ (C44_violated_bits), frame properties are not copied (C44_violated_props), a file without rows is refused (copy_empty)."),
"C35": ("proved", ["C35_import", "C35_any", "csv_sample", "csv_values", "C35_violated_null", "C35_violated_ints", "csv_refused"], "The number parsers (strtod, strtol) and unQuote are parameters (CsvLib) constrained only on the texts that stand for a value; eckit's trim, split and upper-casing are modelled. With integersAsDoubles (the default). NULL strings are outside the domain: they come back as empty strings (C35_violated_null); with integersAsDoubles off integers come back wrong (C35_violated_ints); CRLF, empty cells and quoted delimiters are refused and everything after a blank line is dropped (csv_refused)."),
"C45": ("proved", ["C45_reading_defined", "C45_reading_ends", "C45_decoding_defined", "no_dictionary", "forward_of_scan", "C45_violated_index", "C45_violated_loop", "C45_header_accepted", "parse_headerOk"], "Two defects are excluded by hypothesis and exhibited: a string dictionary entry with a negative index is undefined behaviour (C45_violated_index), a negative data size makes the reader loop for ever (C45_violated_loop). Decoding also excludes the row markers of C29_violated and a total row count of 2^64. Memory exhaustion (a vector of 2^31 elements announced in a short header) is not modelled. Decoding: integers passed as doubles (the default)."),
"C46": ("proved", ["C46_same_rows", "agrees_of", "C46_violated_missing", "C46_violated_stale", "C46_violated_norows"], "Conditions (RowTable): a column, data exactly if rows, no empty long_constant_string (the row buffer offsets wrap), default missing value in integer columns the first row leaves out. Of a string of several words that the first row leaves out only the first word is initialised by either interface, so only that word is claimed equal (SameCell)."),
"C47": ("proved", ["C47_rows_as_frames", "C47_missing", "C47_rows_as_spans", "C47_one_frame"], "C47_one_frame asks for values of one word: string columns of several words may get another width in each frame, and such frames are not joined by the aggregating reader (example at the end of PropBack.lean). C47_missing: missing values of their own for reals and doubles only; integer columns with one are finding C46_violated_missing."),
"C48": ("proved", ["C48_count", "C48_count_shown", "C48_count_encoded", "C48_count_written", "C48_count_files", "C48_count_damaged"], "Counts are unsigned 64-bit numbers (the sums are taken modulo 2^64 in C48_count). The tool's printing is not modelled."),
"C49": ("proved", ["C49_mdset", "C49_values", "C49_refused", "mdEntry_bits", "C49_violated_bits", "C49_violated_empty", "C49_violated_long"], "The number parser of the standard library is a parameter. C49_values: integers passed as doubles (the default) and files in the byte order of the machine. Types change only with the default ODC_INTEGERS_AS_DOUBLES (or are not changed). Excluded and exhibited: bitfield definitions are ignored, long constant strings keep their value, some malformed assignments are undefined behaviour."),
"C50": ("proved", ["C50_rows_defined", "C50_rows_end", "blank_in", "C50_violated_empty"], "Integers passed as doubles (the default) for C50_rows_defined. Excluded by hypothesis on the bytes: a dictionary with a negative index (C45_violated_index), an empty long constant string (C50_violated_empty: the encoder itself writes one for a column of empty strings if ODC_ENABLE_WRITING_LONG_STRING_CODEC is set). Memory exhaustion is not modelled."),
"C51": ("proved", ["C51_set", "C51_set_encoded", "C51_accepted", "filled_ints", "filled_bits", "filled_reals", "filled_doubles", "filled_strings", "setParse_text", "C51_violated_wide", "C51_violated_norows"], "All columns one word wide (C51_violated_wide: otherwise memory is read out of bounds) and at least one row (C51_violated_norows: a row is invented). The translation of number texts is a parameter. Files whose consecutive tables with the same columns differ in bitfield members: see C44_violated_bits."),
"C52": ("proved", ["C52_filter", "C52_filter_encoded", "C52_complete", "C52_violated_types", "C52_violated_exact", "C52_violated_count"], "The SQL engine (eckit::sql) is outside odc: it enters as a parameter (selected columns with titles, columns of the condition, an arbitrary condition on their values and missing flags; string lengths as the engine counts them). Columns must have the same type in all tables (C52_violated_types), names must be unambiguous (C52_violated_exact), every table has rows."),
"C53": ("proved", ["C53_sql_file", "C53_sql_file_encoded", "C53_complete", "C53_violated_titles", "C53_violated_twice"], "As in C52 the SQL engine is a parameter and columns must have the same type in all tables. File names with template parameters (a DispatchingWriter) are not covered. Titles must not be empty and none may be taken for another (C53_violated_titles, C53_violated_twice). C53_complete has no assumption on the input."),
"C54": ("proved", ["C54_split", "C54_no_rows", "C54_complete", "C54_names", "C54_violated_kinds"], "C54_split is about any file whose rows, as the row reader shows them, are those of some tables (consecutive ones differing in a name, type or width); conditions on the key columns as in C30, and a key must be a number in all tables or a string in all (C54_violated_kinds). C54_names gives the hypothesis on names. C54_complete has no assumption on the input. The verification after the split and the sorting option (presortAndSplit, an SQL query) are not modelled."),
"C55": ("proved", ["C55_old_api", "C55_write", "C55_read", "C55_count", "C55_blocks", "C55_violated_buffer", "C55_violated_index", "C55_violated_empty"], "C55_old_api: sessions of writing and appending, read back through the interface alone (names, types, members, offsets, sizes, rows, new_dataset, return codes). The array must be large enough for the declared sizes: the size the interface gives is not enough (C55_violated_buffer). C55_write holds with missing values set by the client too; C55_read is about any bytes, with exceptions. The size of a member is parsed by atof, of which only its value on the decimal text of a number is assumed (OldLib.Ok). Integer arguments are natural numbers in the model. odb_select_* is not modelled."),
"C56": ("proved", ["C56_array", "C56_columns", "C56_accepts", "C56_round_trip", "oddCalls_described"], "Any calls from odc_new_encoder on; refused calls may come between. Counts, dimensions of the array and addresses are natural numbers. C56_round_trip takes the conclusion of C56_array or C56_columns as its hypothesis. Encoding a second time with the same encoder is C41."),
"C57": ("proved", ["C57_encoded_as_documented", "C57_written_as_documented"], "C57_written_as_documented: files written row by row with Writer, with the default missing values. The document is transcribed in DocSpec.lean, independently of the model; where existing files differ from its text the files were followed (finding 35: places marked DIFFERENCE). ODC_ENABLE_WRITING_LONG_STRING_CODEC off: the codec it switches on is not documented."),
"C58": ("proved", ["C58_documented_files_are_read", "C58_documented_rows"], "C58_documented_rows: the row interface, frames of either byte order. C58_documented_files_are_read: the frame interface, files in the byte order of the machine (others cannot be decoded there: C09_violated_decode). Distinct column names; fields within range (Frame.Valid); a first row leaves out only columns of numbers, and integer ones only if their missing value is 2147483647, which is what the library uses whatever the header says."),
"C60": ("proved", ["C60_setup", "C60_decode", "C60_values", "oddDec_ready", "C60_violated_rows", "C60_violated_array"], "Any calls from odc_new_decoder on; refused calls may come between. Row counts, element sizes, strides and addresses are natural numbers. Columns may be mixed (memory of their own or in the array), excluding columns given a size but no memory (C22_violated_size). Raising the row count or giving another array after a frame was decoded is the violated part: C60_violated_rows, C60_violated_array."),
"C59": ("proved", ["C59_frame_filter", "C59_encoded", "C59_violated_strings"], "C59_frame_filter: any frame, of one or several tables, whose answers have the same columns; C59_encoded: a frame of a file written by encode(). For any number of rows if the strings selected fit in a word each, otherwise up to the rows of one output frame (10000): beyond, C59_violated_strings shows an assertion failing."),
"C61": ("proved", ["C61_select", "C61_select_encoded", "C61_old", "C61_old_encoded", "C61_bounded", "C61_complete", "C61_violated_width", "C61_violated_index"], "Domain as for C52 (the engine as a parameter). C61_old: rows of all answers of one size (C61_old_encoded: one table, or no strings selected), since the old C iterator fails with an assertion at the first row of another size: C61_violated_width. C61_bounded: any bytes, any state of the iterator. C61_complete: any bytes, a loop that comes to its end has read the whole file."),
"C62": ("proved", ["C62_verify", "C62_compare", "C62_violated_missing", "C62_violated_option"], "The property as stated is false: the comparison asserts that columns say the same about having missing values, and a merged table has the flag if any of its parts has it (C62_violated_missing). C62_verify gives the outcome in every case (success exactly if the flags agree row by row, otherwise an assertion, never a difference). Conditions of C44_compact, finite numbers (NaN and infinities differ from themselves: C34_violated_inf). odc compare has its option inverted (C62_violated_option); without that option, and reading integers as doubles (the default), it accepts the file and its copy always, whatever is missing and whichever columns are excluded (C62_compare)."),
"C63": ("proved", ["C63_answers", "C63_import_plan", "C63_import", "C63_violated_delimiter", "C63_violated_case"], "C63_answers covers every command line, set of registered options and sequence of questions (text or translated arguments; the translator is a parameter). odc import: without -sql the option -d is ignored (C63_violated_delimiter); with -sql a letter as delimiter is put into upper case (C63_violated_case). The import with -sql is not modelled beyond the plan."),
"C64": ("proved", ["C64_ls", "C64_args", "C64_violated_quotes"], "Files written by encode, integers read as doubles (the default of the tool), every table with at least one row, REAL values being floats; the text of a double (std::fixed) is a parameter. The heading is repeated where the names, types or string widths the reader reports differ from the table before. Quotes and tabulators in texts are printed as they are (C64_violated_quotes)."),
"C65": ("proved", ["C65_header", "C65_cut", "C65_args", "C65_violated_members"], "Files written by encode, whole or cut at any byte (C65_cut: -offsets and -ddl). In the listing in words the text of the columns (MetaData::print, with the codecs) is a parameter. Tables are left out of the definitions if they have the columns of the table before by name, type and width; the members of bitfields are not compared (C65_violated_members). The definitions have a comma after the last column, as the code has."),
"C66": ("proved", ["C66_copy", "C66_count", "C66_index", "C66_update", "C66_split", "C66_compare", "C66_merge", "C66_violated_output", "C66_violated_statement"], "What compact, fixrowsize, count, index, set, mdset, split, compare and merge take from their command lines (the other tools: C63, C64, C65), in terms of the reading of the command line of C63. The translator of the number of open files, the statement read from a file and which files exist are parameters. odc merge without -o writes into a file named <no-default> (C66_violated_output); -S with a file lacking its statement reads beyond the parameters (C66_violated_statement)."),
"C67": ("proved", ["C67_sql", "C67_dest", "C67_violated_stdout", "C67_violated_stdin", "C67_violated_length"], "In terms of the reading of the command line of C63. The translator of numbers, which text is a select statement and the reading of files are parameters; C67_dest takes the output of a statement without INTO, which eckit asks of the configuration (an assumption), and a file name without a template. -f ascii -o - writes to a file named - (C67_violated_stdout); -i - is refused (C67_violated_stdin); -length without -offset is ignored (C67_violated_length). The option -I is accepted and ignored, as in the code."),
"C68": ("proved", ["C68_xyv", "C68_violated_headings"], "The statement's answer (Select, C52) and the text of a double are parameters. The latitude is written under the heading x/long and the longitude under y/lat (C68_violated_headings)."),
}
