{"id": "C01", "title": "Integer columns survive encode/decode exactly", "statement": "If every value of an INTEGER or BITFIELD column is either the column's missing value or lies in the signed 32-bit range, then encoding the column in a frame and decoding it gives back every value bit for bit, whichever on-disk codec the encoder chose (both with integers passed as int64 and with integers passed as doubles). Outside the 32-bit range the encoder does not detect the loss.", "quantifier": "every list of column values, every length, every position of missing values, both in-memory integer representations", "why_tests_cant": "The codec is chosen from the minimum, maximum and presence of missing values, and the boundaries (range 0, 254, 255, 65534, 65535) interact with the marker values; a test covers a few ranges only.", "anchors": ["src/odc/codec/Integer.h BaseCodecInteger, CodecInt8, CodecInt16, CodecInt32", "src/odc/codec/IntegerMissing.h", "src/odc/codec/Constant.h CodecConstant", "src/odc/codec/CodecOptimizer.h setOptimalCodec"]}
{"id": "C02", "title": "DOUBLE columns survive encode/decode exactly", "statement": "If the values of a DOUBLE column contain no NaN and do not mix +0 and -0, encoding and decoding returns the very same 64-bit patterns, including missing values; with NaN present next to a single other value the column is silently replaced by a constant.", "quantifier": "every list of 64-bit patterns", "why_tests_cant": "64-bit float patterns cannot be enumerated; the failing cases are NaN and signed zero in combination with otherwise constant columns.", "anchors": ["src/odc/codec/Real.h CodecLongReal", "src/odc/codec/Constant.h", "src/odc/codec/IntegerMissing.h CodecRealConstantOrMissing", "src/odc/codec/CodecOptimizer.h"]}
{"id": "C03", "title": "REAL columns decode to the single-precision rounding of the input", "statement": "For a REAL column of finite values in which no value rounds to a codec's internal missing marker, decoding returns missing exactly where missing was given and elsewhere the input rounded to the nearest single-precision value (or, for a constant column, the input itself); the encoder never picks a codec whose marker occurs as a value. (The code violates the last clause for -FLT_MAX.)", "quantifier": "every list of 64-bit patterns", "why_tests_cant": "The sentinels are two particular bit patterns out of 2^32; random or example tests never hit them.", "anchors": ["src/odc/codec/Real.h CodecShortReal, CodecShortReal2, CodecLongReal::gatherStats", "src/odc/codec/CodecOptimizer.h"]}
{"id": "C04", "title": "STRING columns survive encode/decode exactly", "statement": "A STRING column whose values are NUL-padded strings of at most the declared width decodes to exactly the same padded strings, for every number of distinct strings below 65536, whichever string codec is chosen.", "quantifier": "every list of strings and every declared column width", "why_tests_cant": "The codec switches at 1, 255 and 65535 distinct strings, and string lengths interact with the 8-byte word layout.", "anchors": ["src/odc/codec/String.h", "src/odc/codec/Constant.h CodecConstantString, CodecLongConstantString", "src/odc/codec/CodecOptimizer.h"]}
{"id": "C05", "title": "Missing is never confused with a value", "statement": "A decoded cell is the missing value if and only if the encoded cell was the missing value (for strings: the empty string): no value in the domains of C01 to C04 collides with the missing marker of the codec chosen for its column. With the short real codecs, where some value of the domain does collide with the marker, the encoder raises an error instead of writing. (Outside the 32-bit range of integers it fails: 6442450943 comes back as missing.)", "quantifier": "every table of columns in the domains of C01 to C04 and every cell of it; every value at all for the short real codecs", "why_tests_cant": "The collision needs an exact boundary value such as min+255 or min+65535.", "anchors": ["src/odc/codec/IntegerMissing.h BaseCodecMissing", "src/odc/codec/Real.h ShortRealBase"]}
{"id": "C06", "title": "Frame round trip", "statement": "Encoding any rectangular table of values with encode and decoding all columns of the resulting frame gives the same cell in every row and column as encoding and decoding each column on its own: compressing unchanged leading columns between rows loses nothing, for every table with at least one row and at most 65535 columns. (With 65536 or more columns the row marker wraps.)", "quantifier": "every number of rows, every number of columns, every pattern of repeated values (strided layouts are C22 and C23)", "why_tests_cant": "Row compression depends on the whole history of the previous rows, and the decoder back-fills strided ranges lazily; the interaction of column subsets, markers and fills has unboundedly many shapes.", "anchors": ["src/odc/core/Encoder.cc encodeFrame", "src/odc/core/Table.cc Table::decode", "src/odc/api/StridedData.h"]}
{"id": "C07", "title": "Decoding a subset of the columns is projection", "statement": "Decoding any duplicate-free selection of columns, in any order, gives for each selected column exactly the cells that decoding all columns gives for it; an unknown column, a column requested twice, or a target with too few elements raises an error and no partial result is reported as success.", "quantifier": "every frame, every selection and order of columns", "why_tests_cant": "There are exponentially many selections; skipping and filling are interleaved per row.", "anchors": ["src/odc/core/Table.cc Table::decode, columnLookup, prepareDecodeTarget"]}
{"id": "C08", "title": "Encoding splits rows into frames without loss", "statement": "encode with n rows and frame limit m>0 writes exactly ceil(n/m) frames (one empty frame for n=0), each with at most m rows and (for n>0) at least one, whose decoded rows concatenated in order are the input rows.", "quantifier": "every n, every m>0, every table", "why_tests_cant": "Off-by-one errors at multiples of m and at the last partial frame need every (n,m).", "anchors": ["src/odc/api/Odb.cc encode"]}
{"id": "C09", "title": "Header and metadata round trip in both byte orders", "statement": "Every frame header (property map, column names, types, bitfield definitions, codec parameters, row count, data size) written by the library is read back identically, and a header written on a machine of the other endianness is read back identically too.", "quantifier": "every list of columns, every property map, every codec state within 32-bit length limits, both byte orders", "why_tests_cant": "Headers contain nested variable-length structures; tests have only a handful of files.", "anchors": ["src/odc/core/Header.cc", "src/odc/core/Header.h", "src/odc/core/MetaData.h load/save", "src/odc/core/Column.h load/save", "src/odc/core/DataStream.h", "src/odc/core/Codec.cc save/load"]}
{"id": "C10", "title": "A corrupted header is rejected", "statement": "If any byte of the header region of a frame is altered so that its digest changes, or the magic, version or digest bytes are altered, opening the frame raises an error; no frame is produced from it.", "quantifier": "every header, every alteration", "why_tests_cant": "All alterations of all headers cannot be enumerated.", "anchors": ["src/odc/core/Header.cc loadAfterMagic, checkHeader, readMagic"]}
{"id": "C11", "title": "Truncation is detected and earlier frames survive", "statement": "Reading any prefix of a valid file of known size without aggregation yields exactly the frames wholly contained in the prefix, followed by a normal end when the cut is at a frame boundary and by an error otherwise.", "quantifier": "every sequence of frames, every cut position (crash point)", "why_tests_cant": "Crash points are as many as bytes of every possible file.", "anchors": ["src/odc/core/Table.cc readTable", "src/odc/core/TablesReader.cc", "src/odc/core/Header.cc readMagic", "src/odc/api/Odb.cc ReaderImpl::next"]}
{"id": "C12", "title": "Reader enumerates all frames once, in order; concatenated files concatenate", "statement": "Reading a file made by concatenating encoded frames yields these frames in file order, each exactly once, then end; reading the concatenation of two files is reading the first then the second.", "quantifier": "every list of encoded frames", "why_tests_cant": "Requires induction over the file.", "anchors": ["src/odc/core/TablesReader.cc ensureTable", "src/odc/core/Table.cc readTable", "src/odc/api/Odb.cc ReaderImpl::next"]}
{"id": "C13", "title": "Aggregation partitions the tables", "statement": "An aggregating reader yields frames that partition the sequence of tables into consecutive non-empty groups; all tables in a frame have columns compatible with the first; no frame with more than one table exceeds the row limit; groups are maximal (the next table was incompatible or would have exceeded the limit); the row count of a frame is the sum over its tables.", "quantifier": "every sequence of tables, every row limit", "why_tests_cant": "Grouping decisions depend on the unbounded sequence of compatibilities and sizes.", "anchors": ["src/odc/api/Odb.cc ReaderImpl::next, FrameImpl::rowCount", "src/odc/core/MetaData.cc compatible"]}
{"id": "C14", "title": "Decoding an aggregated frame concatenates its tables", "statement": "Decoding an aggregated frame fills the rows of the target with the rows of each table, in table order, at the cumulative row offset; every target row is written by exactly one table.", "quantifier": "every list of tables, every target", "why_tests_cant": "Offsets accumulate over an unbounded number of tables.", "anchors": ["src/odc/api/Odb.cc FrameImpl::decode", "src/odc/core/DecodeTarget.cc slice", "src/odc/api/StridedData.h slice"]}
{"id": "C15", "title": "Multi-threaded decode equals sequential decode", "statement": "For every number of threads at least one and every interleaving of the worker threads, decoding an aggregated frame gives the same result as decoding with one thread, each table is decoded exactly once, and no two workers write the same row. The C interface with threads leaves the same bytes in the caller's memory as without.", "quantifier": "every number of threads, tables and every schedule", "why_tests_cant": "Schedules are exponentially many and not controllable from a unit test.", "anchors": ["src/odc/api/Odb.cc FrameImpl::decode (threaded branch)"]}
{"id": "C16", "title": "Concurrent users of one file do not disturb each other", "statement": "Handles that share one underlying file each keep their own position: for every interleaving of reads and seeks by any number of users, every user reads the bytes it would read if alone.", "quantifier": "every interleaving of operations by every number of users", "why_tests_cant": "Schedules cannot be enumerated.", "anchors": ["src/odc/core/ThreadSharedDataHandle.cc"]}
{"id": "C17", "title": "Span lists exactly the values present", "statement": "span over given columns returns, for each column, the set of values occurring in that column in the frame (both constant and varying columns), together with the frame's offset and length; requesting only-constant values of a varying column is an error.", "quantifier": "every frame of one or more tables that have rows, every selection of columns that names each column once, written with long string codecs disabled", "why_tests_cant": "The values are collected only where the encoding stores them explicitly, which depends on row compression of the complete frame.", "anchors": ["src/odc/core/Table.cc Table::span, decodeSpan", "src/odc/core/Span.cc"]}
{"id": "C18", "title": "Frames tile the file and can be copied verbatim", "statement": "The (offset, length) ranges of the frames returned by a reader are contiguous, disjoint and cover the file; the encoded data of a frame equals the bytes of the file in that range, so copying frames reproduces the file.", "quantifier": "every sequence of frames, aggregated or not", "why_tests_cant": "Universal over files.", "anchors": ["src/odc/api/Odb.cc FrameImpl::offset, length, encodedData, SerialTableReadHandle"]}
{"id": "C19", "title": "Frame properties round trip", "statement": "Every string property given to encode is returned by the frame's property map, with the additional encoder property; for an aggregated frame the first table that defines a key decides.", "quantifier": "every property map", "why_tests_cant": "Universal over maps with arbitrary byte strings.", "anchors": ["src/odc/core/Header.cc", "src/odc/core/Encoder.cc", "src/odc/api/Odb.cc FrameImpl::properties, property"]}
{"id": "C20", "title": "Row writer preserves all rows for every buffer size", "statement": "Rows written one at a time through the writer and closed are read back by the reader iterator in the same order with the same values, for every size of the row buffer: flush boundaries are invisible.", "quantifier": "every sequence of rows, every buffer size >= 1", "why_tests_cant": "State (last values, codec missing values) is carried over flushes.", "anchors": ["src/odc/WriterBufferingIterator.cc", "src/odc/ReaderIterator.cc"]}
{"id": "C21", "title": "Missing values set on a writer column", "statement": "Rows written through a writer whose columns were given missing values of their own come back as written, with those values counting as missing in the rows of the first frame, whatever the buffer size. After the first flush the default missing values are back in force (the user's setting is lost), and a given missing value in the first row after the flush is read back as the default one: that history is excluded and the loss is shown separately.", "quantifier": "every sequence of rows, every buffer size, every missing value per column", "why_tests_cant": "Needs a history longer than the row buffer with a specific value first in the next frame.", "anchors": ["src/odc/WriterBufferingIterator.cc flush, allocBuffers, missingValue", "src/odc/core/Column.h resetCodec"]}
{"id": "C22", "title": "Allocated decode buffers do not overlap", "statement": "When the C decoder allocates or lays out the output itself, the byte ranges of distinct cells (row, column) are disjoint and inside the buffer, for row-major and column-major layouts.", "quantifier": "every number of rows and columns, every element size", "why_tests_cant": "Memory-layout arithmetic over all sizes.", "anchors": ["src/odc/api/odc.cc fill_in_decoder, odc_decode"]}
{"id": "C23", "title": "Row-major and column-major give the same table", "statement": "Decoding in column-major order then transposing equals decoding in row-major order; encoding from a column-major array stores the same table as encoding from its transpose in row-major order. Columns given memory of their own are read from and written to their own address with their own stride, and no byte between the rows changes.", "quantifier": "every table and shape", "why_tests_cant": "All shapes.", "anchors": ["src/odc/api/odc.cc odc_decode_threaded, odc_encoder_set_data_array, fill_in_encoder"]}
{"id": "C24", "title": "Column name resolution", "statement": "Looking up a column by name finds the column with exactly this name or the only one whose name before '@' equals it; it reports not-found when none matches and ambiguous when several match; the reported index always designates a matching column.", "quantifier": "every list of column names and every requested name", "why_tests_cant": "Arbitrary names with arbitrary '@' positions.", "anchors": ["src/odc/core/MetaData.cc columnIndex, hasColumn, columnNameMatches"]}
{"id": "C25", "title": "Every API call reports failures as error codes", "statement": "Every C API call returns success exactly if its body completed; every exception kind maps to a non-success code and no exception escapes; iteration-complete is reported exactly at the end of data.", "quantifier": "every outcome of the wrapped function", "why_tests_cant": "All exception paths cannot be triggered by tests.", "anchors": ["src/odc/api/odc.cc wrapApiFunction, odc_next_frame"]}
{"id": "C26", "title": "Header serialisation does not depend on the initial buffer size", "statement": "The bytes of the header are the same whatever the configured header buffer size (>0) and serialisation terminates. This holds in the machine's byte order for every header, and in the other byte order for every header without a constant string column. (With size 0 it does not terminate; in the other byte order a constant string column whose codec lies across the end of the first buffer is written reversed.)", "quantifier": "every header (with the exception stated), every positive initial buffer size", "why_tests_cant": "Retry loop over unbounded sizes.", "anchors": ["src/odc/core/Header.cc serializeHeaderInternal"]}
{"id": "C27", "title": "Column statistics in the header bound the data", "statement": "For a numeric column of an encoded frame without NaN the stored minimum and maximum are attained values bounding all non-missing values, and the has-missing flag is set exactly if some value is missing.", "quantifier": "every list of values", "why_tests_cant": "Unbounded lists; the 'min == missing' initialisation makes the first value special.", "anchors": ["src/odc/core/Codec.h gatherStats", "src/odc/core/Codec.cc"]}
{"id": "C28", "title": "Encoder chooses a codec the values fit in", "statement": "For every column the encoder's chosen codec accepts every value of that column (encoding does not abort) and the widths are minimal in the sense of the documented thresholds; for integer columns without missing values the chosen width is 0,1,2 or 4 bytes according to max-min.", "quantifier": "every list of values", "why_tests_cant": "Boundary values.", "anchors": ["src/odc/codec/CodecOptimizer.h"]}
{"id": "C29", "title": "Aborted decode never reads outside the frame", "statement": "Overwriting the data section of a frame with arbitrary bytes leaves the file readable; decoding it either yields values or raises an error; a successful decode used exactly the bytes of its rows, which lie in the data section, and with fewer of them it raises an error. (Violated when a row marker beyond the number of columns is followed by a smaller one.)", "quantifier": "every byte string as data section", "why_tests_cant": "All byte strings.", "anchors": ["src/odc/core/DataStream.h readBytes", "src/odc/core/Table.cc decode"]}
{"id": "C30", "title": "Split output: every row goes to exactly one file, chosen by its key columns", "statement": "Dispatching rows to files by template partitions the rows: each row is written to the file of its key, in input order within each file, and closing/reopening files because of the open-file limit loses no row.", "quantifier": "every sequence of rows, every limit of open files >= 1", "why_tests_cant": "Eviction depends on unbounded history.", "anchors": ["src/odc/WriterDispatchingIterator.cc", "src/odc/TemplateParameters.cc"]}
{"id": "C31", "title": "Chunking of a file for parallel processing covers it", "statement": "The chunks computed for splitting a file are contiguous, start at 0 and end at the end of file. (Violated when the first table exceeds the limit.)", "quantifier": "every list of table sizes, every chunk limit", "why_tests_cant": "Arithmetic over all lists.", "anchors": ["src/odc/tools/SplitTool.cc getChunks"]}
{"id": "C32", "title": "Merge joins rows side by side", "statement": "Merging inputs gives, for row i, the concatenation of row i of each input; the number of rows is that of the shortest input. A damaged input is never taken for a shorter one: if the merge reports no error, every input could be opened and the shortest ones were read to their end.", "quantifier": "every list of inputs (also arbitrary bytes)", "why_tests_cant": "Unbounded.", "anchors": ["src/odc/tools/MergeTool.cc doMerge"]}
{"id": "C33", "title": "The index lists every run of rows", "statement": "createIndex yields entries whose (block, n) counts add up to all rows, one entry per maximal run of equal sequence numbers within a block.", "quantifier": "every sequence of blocks and rows", "why_tests_cant": "Unbounded run lengths.", "anchors": ["src/odc/Indexer.cc createIndex"]}
{"id": "C34", "title": "Comparison of files is sound", "statement": "compare succeeds only if both inputs have equal numbers of rows and equal values according to the tolerance; comparing a file with itself succeeds.", "quantifier": "every pair of row sequences", "why_tests_cant": "Unbounded.", "anchors": ["src/odc/Comparator.cc"]}
{"id": "C35", "title": "CSV import keeps the cells", "statement": "Importing delimited text yields one row per non-empty line with each cell converted according to its column's type and NULL mapped to missing; importing stops at the first empty line. A text with a bad column declaration, a bitfield of more than 31 bits, or a line with another number of values before the first empty line is refused.", "quantifier": "every text", "why_tests_cant": "Arbitrary text.", "anchors": ["src/odc/csv/TextReaderIterator.cc"]}
{"id": "C36", "title": "Independent iterators over one file see the same tables", "statement": "Any number of iterators over the same reader, advanced in any order, each enumerate the same sequence of tables, and each table is parsed only once. The same holds of iterators in different threads as long as no data race occurs (one can, unless an iterator has passed through the file before); the threads do not block one another for ever.", "quantifier": "every interleaving of iterator steps; every number of threads and every schedule of their steps; every byte string", "why_tests_cant": "Interleavings.", "anchors": ["src/odc/core/TablesReader.cc"]}
{"id": "C37", "title": "Bitfield definitions are kept and offsets are cumulative", "statement": "The bitfield members of a column are returned with their names and sizes unchanged, with offsets equal to the sum of the preceding sizes, and the C encoder rejects definitions exceeding 32 bits.", "quantifier": "every list of members", "why_tests_cant": "All lists.", "anchors": ["src/odc/core/Column.h", "src/odc/api/Odb.cc columnInfo", "src/odc/api/odc.cc odc_encoder_column_add_bitfield"]}
{"id": "C38", "title": "Reading and writing primitive values are inverse", "statement": "Every integer, double, string, vector and map written to a data stream is read back identically leaving the rest of the stream untouched, in both byte orders; a read past the end raises an error.", "quantifier": "every value, every following stream contents", "why_tests_cant": "Unbounded nested data.", "anchors": ["src/odc/core/DataStream.h"]}
{"id": "C39", "title": "Encoder rejects or preserves duplicate column names", "statement": "A frame that was encoded successfully can be decoded successfully. (Violated when two columns have the same name.)", "quantifier": "every list of column names", "why_tests_cant": "Universal.", "anchors": ["src/odc/core/Encoder.cc", "src/odc/core/Table.cc columnLookup"]}
{"id": "C40", "title": "Shared iterator lifetime", "statement": "An iterator object shared by several proxies is closed and destroyed exactly once, when the last proxy goes away, and is never used afterwards.", "quantifier": "every sequence of copies, assignments and destructions", "why_tests_cant": "Histories.", "anchors": ["src/odc/IteratorProxy.h"]}
{"id": "C41", "title": "An encoder can be used again", "statement": "A C encoder that has encoded an array refuses to encode again until it is given an array, and then encodes the new array like a fresh encoder with the same settings (keeping the row count of the first array).", "quantifier": "every array, layout, column list and first use", "why_tests_cant": "Histories.", "anchors": ["src/odc/api/odc.cc odc_encoder_set_data_array, fill_in_encoder"]}
{"id": "C42", "title": "Properties by index", "statement": "Walking the properties of a frame through the C API by index 0, 1, 2, ... returns each key/value pair of the frame exactly once and in order, whatever indices were asked for before; an index outside the range is an error.", "quantifier": "every frame, every sequence of property, copy and next calls", "why_tests_cant": "The memoised iterator makes the result depend on the whole call history.", "anchors": ["src/odc/api/odc.cc odc_frame_property_idx, odc_copy_frame"]}
{"id": "C43", "title": "Row iteration agrees with decoding", "statement": "A file written with encode and iterated over with the row interface shows the rows of its tables in order, no more and no less, each with the values that decoding the frame gives, whatever the memory the reader allocates contained before.", "quantifier": "every list of tables, every previous memory content", "why_tests_cant": "Unbounded; depends on uninitialised memory.", "anchors": ["src/odc/ReaderIterator.cc", "src/odc/core/Encoder.cc"]}
{"id": "C44", "title": "Copying a file row by row keeps its rows", "statement": "Copying a file with the row interface (odc compact) gives a file with the same rows in the same order, each with the same column names, types and values, and reports their number, however many rows a frame of the copy holds and wherever the columns of the input change.", "quantifier": "every list of tables, every change of columns between them, every frame size", "why_tests_cant": "Unbounded files; frame boundaries, buffer flushes and schema changes interact.", "anchors": ["src/odc/WriterBufferingIterator.h pass1, pass1init", "src/odc/tools/CompactTool.cc", "src/odc/ReaderIterator.cc"]}
{"id": "C45", "title": "Arbitrary bytes are read safely", "statement": "Given any bytes at all, opening a reader, taking frames from it (aggregated or not) and decoding columns of the frames it delivers into large enough targets yields frames and values, the end, or a reported error - never undefined behaviour - and the loop over the frames ends after at most one table per 57 bytes.", "quantifier": "every byte string, every position of the reader, every aggregation limit, every request", "why_tests_cant": "Hostile or damaged input is unbounded; fuzzing samples it.", "anchors": ["src/odc/core/Header.cc", "src/odc/core/Column.h load", "src/odc/codec/String.h load", "src/odc/core/TablesReader.cc", "src/odc/api/Odb.cc ReaderImpl::next"]}
{"id": "C46", "title": "The two reading interfaces agree on every file", "statement": "If a file, whoever wrote it, is read by the frame interface and every column of every frame decodes, then iterating over it with the row interface ends normally and shows exactly the rows of the frames, in order, with the same columns and the same values, and announces a new table exactly where a frame begins, whatever memory contained before. (Violated for integer columns with a missing value of their own that the first row leaves out, for tables with data but without rows, and, the other way round, for tables with too little data.)", "quantifier": "every sequence of bytes, every previous memory content", "why_tests_cant": "All byte sequences; two independent decoders over shared state.", "anchors": ["src/odc/ReaderIterator.cc load, initRowBuffer, readBuffer, next", "src/odc/core/Table.cc decode", "src/odc/core/Codec.cc clone"]}
{"id": "C47", "title": "Row-written files decode as frames", "statement": "A table written row by row with Writer, with any buffer size, and read with the frame interface gives ceil(rows/buffer size) frames, each with the properties and the columns declared; decoding frame k into any columns asked for puts the values of rows k*size on, in order, and leaves the elements after the last row alone. Joined frames (aggregation) decode to the rows of all their tables in order; when every value fits one word, reading with aggregation gives the whole table as one frame.", "quantifier": "every table, buffer size, request, run of consecutive frames", "why_tests_cant": "All tables, all buffer sizes and all requests; crosses the row writer's per-frame choice of codecs and the column decoder.", "anchors": ["src/odc/WriterBufferingIterator.cc writeRow, flush", "src/odc/api/Odb.cc Reader, Decoder", "src/odc/core/Table.cc decode", "src/odc/core/MetaData.cc compatible"]}
{"id": "C48", "title": "Counting rows agrees with reading them", "statement": "odc count (RowsCounter), which looks at headers only, gives for every file the frame interface reads to its end the sum of the rows of its frames; it is the number of rows that iterating over the file shows, and for files made by encode or by the row writer the number of rows written. Counting several files gives the sum, and a file that cannot be read to its end is reported as an error, not counted in part.", "quantifier": "every file, every list of files", "why_tests_cant": "All files; agreement of three independent walks over the file.", "anchors": ["src/odc/RowsCounter.cc fastRowCount", "src/odc/tools/CountTool.cc rowCount, run"]}
{"id": "C49", "title": "Updating metadata in place changes what was asked for and nothing else", "statement": "odc mdset with a list of assignments <column>[:<type>][=<value>], on any file the frame interface reads to its end: if each assignment names one column of every frame, constant if it is given a value, the output is read to its end, frame by frame with the same byte order, number of rows, properties, data bytes and columns, except for the types and constant values asked for; every value decoded from the new file is that of the old one, except that the old constant is replaced by the new one and missing values stay missing. Otherwise the tool stops with an exception at the first frame in which an assignment cannot be made.", "quantifier": "every file, every list of assignments", "why_tests_cant": "All files (whoever wrote them) and all combinations of updates; the headers are parsed and serialised again.", "anchors": ["src/odc/tools/MDSetTool.cc run, parseUpdateList", "src/odc/StringTool.cc translate, cast_as_double", "src/odc/core/Column.cc type", "src/odc/core/Header.cc serializeHeader"]}
{"id": "C50", "title": "The row reader is defined on arbitrary bytes and ends", "statement": "Iterating over the rows of any sequence of bytes with the row reader ends, at the end of the data or with an exception, after at most (N/57)*(N/2) rows for N bytes; it does nothing undefined whatever uninitialised memory holds, unless the bytes contain a dictionary with a negative index or an empty long constant string; every row shown has one cell per column of the current table, of the size of that column.", "quantifier": "every byte sequence, every content of uninitialised memory", "why_tests_cant": "Arbitrary, damaged or hostile bytes; all of them cannot be tried.", "anchors": ["src/odc/ReaderIterator.cc loadHeaderAndBufferData, initRowBuffer, readBuffer, next", "src/odc/core/Header.cc loadAfterMagic", "src/odc/codec/Constant.h CodecLongConstantString"]}
{"id": "C51", "title": "odc set sets exactly the columns named", "statement": "odc set 'c1=v1,c2=v2,...' in out: every row of the input, from all tables and in order, arrives in the output with the same columns; the columns meant by an assignment hold its value (number, quoted string padded on the left to eight bytes, or bytes in hexadecimal; the last assignment to a column counts) in every row, all other columns the old values. If the tool succeeds, the whole input was read, the rows were counted, and each assignment meant exactly one column of every table.", "quantifier": "every file, every list of assignments, every number of rows per output frame", "why_tests_cant": "All files, tables and assignments cannot be tried.", "anchors": ["src/odc/tools/SetTool.cc run, parseUpdateList", "src/odc/ODAUpdatingIterator.cc", "src/odc/ConstantSetter.h", "src/odc/WriterBufferingIterator.h pass1", "src/odc/StringTool.cc translate"]}
{"id": "C52", "title": "filter() outputs exactly the rows that meet the condition", "statement": "filter('select c1 as t1, ... where condition', in, out): the output holds, under the given titles and in the order of the query, the selected columns of exactly the input rows that meet the condition, from all tables and in order, with unchanged values, missing values missing, and strings unchanged however wide they are in each table; the result is their number. A column name means the column of that name, or the only one called name@table, in every table at whatever position.", "quantifier": "every file of tables (column order, string widths, missing values may differ from table to table), every selection of columns and every condition on values, every number of rows per output frame", "why_tests_cant": "All files, selections and conditions cannot be tried.", "anchors": ["src/odc/api/Odb.cc filter", "src/odc/Select.cc", "src/odc/SelectIterator.cc", "src/odc/sql/TODATable.cc populateMetaData, column", "src/odc/sql/TODATableIterator.cc", "src/odc/sql/SQLSelectOutput.cc"]}
{"id": "C53", "title": "odc sql ... -o file writes exactly the rows of the answer", "statement": "odc sql 'select c1 as t1, ... where condition' -i in -o out (and select ... into): the output file holds, under the given titles and in the order of the query, the selected columns of exactly the input rows that meet the condition, from all tables and in order, with unchanged values, missing values missing, and strings whole although they may become wider while the query runs; the number of rows reported is theirs. If the command succeeds, the input was read to its end.", "quantifier": "every file of tables (column order, string widths, missing values may differ from table to table), every selection of columns and every condition on values, every number of rows per output frame; for the last sentence every byte string", "why_tests_cant": "All files, selections and conditions cannot be tried.", "anchors": ["src/odc/sql/ODAOutput.cc", "src/odc/sql/SQLOutputConfig.cc", "src/odc/tools/SQLTool.cc", "src/odc/sql/TODATableIterator.cc", "src/odc/WriterBufferingIterator.cc flushAndResetColumnSizes"]}
{"id": "C54", "title": "odc split puts every row into the file named by its values, also where the columns change", "statement": "odc split in template: the input may be a sequence of tables with different columns. Every input row is in exactly one output file, the one whose name is the template with the row's values for {column}, in the order of the input and with the columns and values it had, no matter how few files may be open at once and where in the input the columns change; the number of rows is reported; files of other names are not touched; an input without rows makes no files. If the command succeeds, the input was read to its end.", "quantifier": "every file of tables, every template with at least one {column} in it, every limit on open files, every number of rows per output frame, every state of the directory; for the last sentence every byte string", "why_tests_cant": "The state depends on the whole history: which outputs are open, which were closed and reopened, and in which columns each was when the input changed. No finite set of inputs covers this.", "anchors": ["src/odc/tools/SplitTool.cc split", "src/odc/WriterDispatchingIterator.cc pass1, dispatchIndex, createIterator, parseTemplateParameters", "src/odc/WriterBufferingIterator.cc flush, writeHeader"]}
{"id": "C55", "title": "What is written with the old C (Fortran) interface is read back with it, and its counts and block offsets are those of the file", "statement": "A client of the odb_* functions declares columns, bitfields and sizes, writes rows, appends further tables to the file in later sessions. A client that opens the file and calls odb_read_iterator_get_next_row with the number of columns gets every row once and in order with return value 0, then 1 for ever; after each call the functions about columns give the names, types, bitfield members that were declared, the value that marks missing ones, and offsets and sizes with which the values written are found in the array; the array behind the row is unchanged; new_dataset says where a table begins. On any file: the calls deliver the rows the C++ row iterator delivers and end with the same exception; a call with a wrong number of columns returns 2. odb_count is the number of rows (up to 2^53) and get_blocks_offsets cuts the file into one piece per table, each of which is a file by itself.", "quantifier": "every list of tables of the same number of columns, every number of buffered rows, every content of the array; for reading, counting and blocks every byte string that is a readable file (for reading: any bytes)", "why_tests_cant": "The offsets and sizes depend on the encodings chosen for each table's values, and the calls on the state left by all earlier ones.", "anchors": ["src/odc/odccapi.cc odb_create_write_iterator, odb_create_append_iterator, odb_write_iterator_*, odb_create_read_iterator, odb_read_iterator_*, odb_count, get_blocks_offsets"]}
{"id": "C56", "title": "The C encoder is what the accepted calls say, whatever their order", "statement": "A C client makes any sequence of odc_encoder_* calls on a new encoder, some of which may be refused with an error code. The columns are those added, in order; for sizes, row count, rows per frame, property values, addresses and strides the last accepted call counts; bitfield members are kept in order; a refused call has no effect. Encoding then gives the same bytes as encode() of the table so described, in frames of the given number of rows (10000 by default), and C decoders of these frames give the values back. A call is refused exactly if it names a column that does not exist, a size or stride that is not a non-negative multiple of 8, or bitfield members that do not fit in 32 bits.", "quantifier": "every sequence of calls with any arguments, every table, both memory layouts and columns with memory of their own", "why_tests_cant": "The histories of calls are unbounded.", "anchors": ["src/odc/api/odc.cc odc_encoder_add_property, odc_encoder_set_row_count, odc_encoder_set_rows_per_frame, odc_encoder_set_data_array, odc_encoder_add_column, odc_encoder_column_set_data_size, odc_encoder_column_set_data_array, odc_encoder_column_add_bitfield, odc_encode_to_data_handle"]}
{"id": "C57", "title": "What encode() and Writer write is the documented file format", "statement": "The bytes that encode() produces for any table are one frame as the file format reference describes it (magic, format number, byte order, version, digest, header length, flags, properties, columns with type, bitfield members, codec and its parameters, and rows with their markers and codes), on machines of either byte order. The frame has the table's column names, types, members, properties and number of rows, and the values that the document assigns to the codes are the values of the table. The files that Writer writes row by row are sequences of such frames, one for each buffer of rows.", "quantifier": "every table encode() or Writer accepts, every buffer size, both byte orders", "why_tests_cant": "The tables are unbounded, and a test that reads with the same library cannot tell whether writer and reader agree with the document.", "anchors": ["docs/content/reference/file-format-reference.rst", "src/odc/core/Header.cc", "src/odc/api/Odb.cc encode", "src/odc/core/Encoder.cc", "src/odc/codec"]}
{"id": "C58", "title": "A file that follows the documented format is read as documented", "statement": "Any sequence of frames made according to the file format reference (by whatever program), with distinct column names and numbers within the ranges of their fields, is read without an error, frame by frame, with the row counts, columns, types, bitfield members and properties of the headers, and a decoder for any selection of columns gives the values that the document assigns to the codes in the rows; a column left out of a row keeps the value of the row before, and is missing in the first row. The row interface shows the same rows in order, for frames of either byte order.", "quantifier": "every sequence of documented frames, any codec for any column, any number of flags, properties, columns, rows, any row markers and codes", "why_tests_cant": "The library's own encoder never writes most of these files (other codecs, flags, markers), so tests that go through it do not reach them.", "anchors": ["docs/content/reference/file-format-reference.rst", "src/odc/core/Header.cc", "src/odc/core/Table.cc", "src/odc/core/DecodeTarget.cc", "src/odc/codec"]}
{"id": "C59", "title": "Frame::filter gives the answer of the query on that frame as one frame", "statement": "frame.filter('select c1 as t1, ... where condition'): if no row of the frame meets the condition, the result is the null frame; otherwise it is one frame without properties, with the selected columns under their titles (types, bitfield members) and exactly the rows of this frame that meet the condition, in order: decoding any of its columns gives their values and nothing after the last row. Rows of other frames of the file play no role.", "quantifier": "every frame of every file, of one table or of several, every selection of columns with distinct titles and every condition on values, any number of rows per output frame", "why_tests_cant": "All frames, selections and conditions cannot be tried.", "anchors": ["src/odc/api/Odb.cc FrameImpl::filter, SerialTableReadHandle, filter", "src/odc/core/TablesReader.cc", "src/odc/Select.cc", "src/odc/sql/SQLSelectOutput.cc"]}
{"id": "C60", "title": "A C decoder does what its calls describe, for every frame it is used on", "statement": "After any sequence of odc_decoder_* calls on a new decoder, in any order and with refused calls among them, the decoder is the one the accepted calls describe (columns in the order added, with the size and memory said last; row count, layout and array said last), and a call is refused exactly if it gives a null or empty array, names a column that was not added before, or takes defaults from a frame whose columns cannot be listed. odc_decode then puts the values of each requested column, for plain and aggregated frames, at the places that follow from these calls: in the memory of the column (address, stride), or in the array behind the columns before it; columns of both kinds can be mixed. No other byte changes, later frames are decoded into the same places, and odc_decoder_column_data_array reports these places.", "quantifier": "every sequence of calls, every mixture of columns, sizes, strides and layouts whose places do not overlap, every file of tables, every frame, any number of frames decoded one after the other", "why_tests_cant": "Call sequences, layouts and frames are unbounded; a missed case corrupts memory silently.", "anchors": ["src/odc/api/odc.cc odc_decoder_*, fill_in_decoder, odc_decode_threaded"]}
{"id": "C61", "title": "A query answered row by row gives exactly the rows of the answer", "statement": "Iterating over odc::Select shows, in order, exactly the rows of each table that meet the condition, with the titles asked for, the types and bitfield members of the columns, and their values; isMissing is true exactly for the missing ones, isNewDataset for the first row of each table's answer. odb_select_iterator_get_next_row (old C interface) delivers the same rows into the client's array if rows keep their size: the value of each column lies at the offset and in the size reported, it equals the missing value reported exactly if it is missing; after the last row it returns 1 and touches nothing. On any file and query it never writes more words than the row size reported before the call.", "quantifier": "every file, selection of columns and condition on values, any number of tables and rows; for the bound every iterator state", "why_tests_cant": "All files, selections and conditions cannot be tried, nor all places where a row could end in the client's array.", "anchors": ["src/odc/Select.cc", "src/odc/SelectIterator.cc", "src/odc/sql/SQLSelectOutput.cc output, resetBuffer, updateTypes", "src/odc/IteratorProxy.h isMissing", "src/odc/odccapi.cc odb_select_create, odb_create_select_iterator, odb_select_iterator_*"]}
{"id": "C62", "title": "Compacting a file is verified by its own comparison", "statement": "odc compact (and odc fixed) copies a file and then compares the copy with it. If the file was written by the library, holding finite numbers, the comparison never finds a difference, whatever the number of rows per frame and however many tables are merged, and the verification succeeds if no value is missing; with missing values it succeeds exactly if, row by row, the columns of original and copy say the same about having missing values.", "quantifier": "every sequence of encoded tables, number of rows per frame, content of uninitialised buffers", "why_tests_cant": "All files, frame sizes and ways in which tables are merged cannot be tried.", "anchors": ["src/odc/tools/CompactTool.cc run", "src/odc/tools/FixedSizeRowTool.cc run", "src/odc/tools/CompareTool.cc run", "src/odc/Comparator.cc, Comparator.h"]}
{"id": "C63", "title": "The tools read their command lines as they are written", "statement": "Whatever a tool asks of its command line (parameters, one parameter, whether an option is set, the argument of an option or a default), in whatever order and number, of the parser or of copies of it, is answered according to what the command line says with the options registered before the first question: parameters are the texts that do not look like options, in order; an option registered with an argument takes the next text, the last one given counts. A command line says this in one way only, unless it ends with an option whose argument is missing: then every question fails with a UserError. odc import takes its two files from it and imports the table the text stands for.", "quantifier": "every command line, every set of registered options, every sequence of questions, registrations and copies; for odc import every text", "why_tests_cant": "Command lines and orders of questions cannot be enumerated; the unit test has one command line.", "anchors": ["src/odc/CommandLineParser.cc", "src/odc/CommandLineParser.h", "src/odc/tools/ImportTool.cc run"]}
{"id": "C64", "title": "odc ls prints every row and marks the missing values", "statement": "odc ls takes one file (any other number of parameters is a UserError) and prints to the standard output, or to the file given with -o. For a file written by encode it prints one line for each row, in order: the values with tabulators between them, integers in decimal notation, texts in quotes, and a dot exactly where the value is missing. The names of the columns come before the first row and before a table of which the columns, by name, type or width, differ from the table before, and nowhere else. The number of rows it reports is that of the tables.", "quantifier": "every list of tables with at least one row each, every command line, every text for the doubles", "why_tests_cant": "Tables, missing positions and changes of columns between tables cannot be enumerated; no unit test looks at the output of odc ls.", "anchors": ["src/odc/tools/LSTool.cc printData, run"]}
{"id": "C65", "title": "odc header describes every table where it is", "statement": "odc header takes one file (any other number of parameters is a UserError). With -offsets it prints a line for each table with the position where it begins, its number of bytes, of rows and of columns, such that each table begins where the one before ends; without options the same in words, numbered from 1, with the byte order and the columns. With -ddl it prints the definition of each table, unless the columns have name, type and width of those of the table before: a type for each bitfield column with the members and their sizes, and the columns in order with their types, names without @ and the name of the table (the argument of -table, foo by default). If the file is cut inside a table, -offsets prints the lines of the tables before it and fails with ODBIncomplete.", "quantifier": "every list of tables, every cut, every name of the table, every command line", "why_tests_cant": "Tables, cuts, columns and bitfields cannot be enumerated; the regression scripts only search the output for a few words.", "anchors": ["src/odc/tools/ODAHeaderTool.cc", "src/odc/core/TablesReader.cc"]}
{"id": "C66", "title": "The tools take from their command lines what their usage says", "statement": "odc compact and odc fixrowsize take a file to read and one to write; odc count one file or more; odc index a file and an index, by default the name of the file with .idx; odc set and odc mdset updates, a file to read and one to write; odc split a file and a template, with 200 open files unless -maxopenfiles, presorting only with -sort, verifying unless -no_verification; odc compare two existing files, with the types and columns not to compare as lists separated by commas; odc merge at least two parameters, the files or with -S each file with a statement, into the argument of -o. Any other number of parameters, and an option without its argument, is a UserError. Options stand anywhere on the line.", "quantifier": "every command line", "why_tests_cant": "The orders of options and parameters cannot be enumerated; the regression scripts give each tool one or two command lines.", "anchors": ["src/odc/tools/CompactTool.cc", "src/odc/tools/FixedSizeRowTool.cc", "src/odc/tools/CountTool.cc", "src/odc/tools/IndexTool.cc", "src/odc/tools/SetTool.cc", "src/odc/tools/MDSetTool.cc", "src/odc/tools/SplitTool.cc", "src/odc/tools/CompareTool.cc", "src/odc/tools/MergeTool.cc"]}
{"id": "C67", "title": "odc sql does with its options what its usage says", "statement": "odc sql takes a statement, which is all its parameters joined by blanks, or the contents of the file its first parameter names, with a semicolon added; the options -T, -N, --bin or --binary, --no_alignment, --full_precision or --full-precision, -delimiter (a tabulator by default) and -f (default by default) are those of the output, wherever they stand. Rows come from the file of -i, whole or the part given by -offset and -length. The result is text on standard output without -o, text in the file of -o with -f ascii or wide, frames in the file of -o with -f odb or by default. No statement, -f odb without -o and an option without its argument are a UserError.", "quantifier": "every command line, whatever the numbers, statements and files", "why_tests_cant": "The orders and combinations of a dozen options cannot be enumerated; the tests use a few fixed command lines.", "anchors": ["src/odc/tools/SQLTool.cc SQLTool, run", "src/odc/sql/SQLOutputConfig.cc buildOutput"]}
{"id": "C68", "title": "odc xyv writes a line for each row", "statement": "odc xyv takes a file, the name of a column and the file to write (any other number of parameters is a UserError). It asks the statement 'select lat, lon, column' of the file and writes a heading and then for each row of the answer, in order and none left out, a line with the three values separated by tabulators. If the statement fails the tool fails.", "quantifier": "every command line, every answer of any number of rows", "why_tests_cant": "Answers and command lines cannot be enumerated; there is no test of this tool.", "anchors": ["src/odc/tools/XYVTool.cc"]}
