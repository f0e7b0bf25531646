{"id": "C01", "title": "Variable-length integers survive a write and read", "statement": "Writing any unsigned 64-bit integer in the file's variable-length form and reading it back returns that integer, no error, and consumes exactly the bytes that were written, leaving whatever follows untouched. The form takes between 1 and 10 bytes, one per started group of 7 bits.", "quantifier": "every uint64 value and every byte sequence following it", "why_tests_cant": "2^64 values times arbitrary continuations; the boundaries at each multiple of 7 bits and the 10th-byte overflow rule cannot be sampled exhaustively", "anchors": ["internal/io/binary/util.go:ReadUvarint", "internal/io/binary/uint.go:UvarintArrayToBytes"]}
{"id": "C02", "title": "Strings, byte blocks and their arrays survive a write and read", "statement": "For every string (any bytes, not only UTF-8), byte block, list of strings and list of unsigned integers, reading what the writer produced returns the identical value and the exact number of bytes, and leaves the following bytes unread.", "quantifier": "all strings, byte blocks and lists that fit in memory, followed by arbitrary bytes", "why_tests_cant": "unbounded lengths and contents; an off-by-one at a length boundary shows only at specific lengths", "anchors": ["internal/io/binary/string.go:StringToBytes", "internal/io/binary/string.go:ReadString", "internal/io/binary/string.go:ReadStringArray", "internal/io/binary/bytes.go:ReadBytesArray", "internal/io/binary/uint.go:ReadUvarIntArray"]}
{"id": "C03", "title": "A reader that failed stays failed", "statement": "Once a read through the error-tracking reader has failed, every later read returns the same error, delivers no bytes and takes nothing from the source; the reported total equals the number of bytes actually taken.", "quantifier": "every sequence of reads of any sizes over every source content", "why_tests_cant": "the sequences of operations and failure positions are unbounded", "anchors": ["internal/io/binary/reader.go:ErrReader"]}
{"id": "C04", "title": "Every metadata value survives a write and read", "statement": "Any metadata value built with the public constructors (string, int, float32, bool, byte, vectors, time, nested blocks to any depth, and the typed arrays) is returned unchanged by reading what was written, whatever order the runtime iterates maps in, consuming exactly the bytes written.", "quantifier": "all metadata values of any nesting depth, all map iteration orders, all following bytes", "why_tests_cant": "recursive values of unbounded depth and nondeterministic map iteration order", "anchors": ["format/metadata/property.go", "format/metadata/io.go:WriteProprty", "format/metadata/io.go:ReadProperty", "format/metadata/metadata.go"]}
{"id": "C05", "title": "Metadata type codes are unambiguous", "statement": "Reading a metadata value whose type code is not one of the supported codes returns an error; two values of different kinds never share a type code except byte arrays and arrays of bytes, and boolean true/false.", "quantifier": "all 256 codes and all payloads", "why_tests_cant": "payloads are unbounded; the claim is about all codes at once including the composed array codes", "anchors": ["format/metadata/io.go:readPropData", "format/metadata/property.go"]}
{"id": "C06", "title": "Integer metadata keeps 32 bits", "statement": "An integer metadata value reads back as the given integer exactly when it lies in [-2^31, 2^31); any other integer reads back congruent to it modulo 2^32 within that range.", "quantifier": "all 64-bit integers", "why_tests_cant": "the full integer range", "anchors": ["format/metadata/property.go:NewIntProperty"]}
{"id": "C07", "title": "Enum collections survive encoding", "statement": "Encoding any list of enum collections together and decoding each one with the shared header and its own data returns, for every collection, the same name, the same member list (including duplicates and members shared between collections) and the same capture values (negative ones included) at the times supplied.", "quantifier": "all lists of enum collections, all member lists, all int values, all capture counts", "why_tests_cant": "the shared dictionary couples all collections; index errors depend on the overlap pattern", "anchors": ["format/encoding/enum/enum.go:Encode", "format/encoding/enum/enum.go:Decode"]}
{"id": "C08", "title": "Event collections survive encoding", "statement": "Encoding any list of event collections together and decoding each one returns, for every collection, the same event names and the same metadata for every capture in the same order, whatever order the runtime iterates the metadata maps in.", "quantifier": "all lists of event collections, all names and metadata, all map iteration orders", "why_tests_cant": "two shared dictionaries and nondeterministic map order", "anchors": ["format/encoding/event/event.go:Encode", "format/encoding/event/event.go:Decode"]}
{"id": "C09", "title": "Full-precision position, rotation and float data is stored bit for bit", "statement": "With the 64-bit storage techniques every component of every capture comes back with the identical bit pattern, including negative zero, subnormals, infinities and NaN payloads.", "quantifier": "all 2^64 bit patterns per component, all capture counts", "why_tests_cant": "bit patterns and counts cannot be enumerated", "anchors": ["format/encoding/position/raw64.go", "format/encoding/euler/raw64.go", "format/encoding/float/float.go"]}
{"id": "C10", "title": "Single-precision storage rounds to nearest and loses nothing the second time", "statement": "With the 32-bit storage techniques each component comes back as the nearest float32 (ties to even) of the original, within a relative error of 2^-24 in the normal range; encoding the decoded data again and decoding returns it unchanged.", "quantifier": "all float64 values, all capture counts", "why_tests_cant": "all float64 bit patterns", "anchors": ["format/encoding/position/raw64.go", "format/encoding/euler/raw32.go", "format/encoding/float/float.go", "format/io/time.go"]}
{"id": "C11", "title": "Binary-search quantisation error is bounded", "statement": "A value inside [start, start+duration] stored with n bytes by the binary-search quantiser is read back within duration/2^(8n+1) of it, plus an explicit floating-point rounding allowance; values outside are read back as the nearest representable end.", "quantifier": "all finite start, duration >= 0 with |start|+duration <= 2^1021, all finite values, all byte counts up to 2^46", "why_tests_cant": "continuous range; floating-point comparison boundaries", "anchors": ["internal/io/binary/util.go:UnsignedFloatBSTToBytes", "internal/io/binary/util.go:BytesToUnisngedFloatBST"]}
{"id": "C12", "title": "Oct-tree cell packing is lossless", "statement": "Packing any 8 (or 16) oct-tree cells into 3 (or 6) bytes and unpacking returns the same cells, and every 3 (or 6) bytes come from exactly one list of cells.", "quantifier": "all lists of 8 or 16 cells and all 3- or 6-byte buffers", "why_tests_cant": "2^24 and 2^48 combinations", "anchors": ["format/encoding/position/oct.go:octCellsToBytes24", "format/encoding/position/oct.go:octCellsToBytes48"]}
{"id": "C13", "title": "Oct-tree position error is bounded for every capture", "statement": "With the oct-tree techniques the i-th decoded position differs from the original, on each axis, by at most i * (largest delta - smallest delta)/2^(d+1) (d = 8 or 16 levels) plus explicit float32 and rounding allowances; captures never go missing and no capture is displaced by more.", "quantifier": "all finite position sequences of every length", "why_tests_cant": "error feedback couples each capture with all earlier ones; unbounded length", "anchors": ["format/encoding/position/oct24.go", "format/encoding/position/oct48.go", "format/encoding/position/oct.go"]}
{"id": "C14", "title": "Full-precision times are exact", "statement": "With 64-bit time storage every capture time comes back bit for bit and in order, and with 32-bit storage as its nearest float32.", "quantifier": "all time sequences of every length and bit pattern", "why_tests_cant": "all float64 bit patterns and lengths", "anchors": ["format/io/time.go:encodeTime", "format/io/time.go:decodeTime"]}
{"id": "C15", "title": "Compact times: count, order and error", "statement": "With 16-bit time storage a collection whose captures are in chronological order reads back with the same number of captures, times that never decrease, and the i-th time within i * maxGap/2^17 of the original plus explicit float32 and rounding allowances.", "quantifier": "all chronological time sequences of magnitude up to 2^126, of every length a file can hold (2^40 bytes)", "why_tests_cant": "feedback accumulates over arbitrarily long sequences", "anchors": ["format/io/time.go:encodeTimeBST16", "format/io/time.go:decodeTimeBST16"]}
{"id": "C16", "title": "Compact times do not accumulate error under the drift correction", "statement": "The drift correction keeps the error of every decoded time at most maxGap/2^17 (plus rounding) regardless of the capture's index.", "quantifier": "all chronological finite time sequences of every length", "why_tests_cant": "needs arbitrarily long sequences; evenly spaced captures are the critical case", "anchors": ["format/io/time.go:encodeTimeBST16"]}
{"id": "C17", "title": "A recording written and read back is the same recording", "statement": "For every recording tree accepted by the writer, writing it and reading the result gives the same id, name, metadata, binary references (name, uri, size, metadata), binaries (name, content, metadata), child recordings in order at every depth, and collections in order; with lossless techniques every capture is identical, and with lossy ones each collection equals the reconstruction defined by its technique alone.", "quantifier": "all recording trees of any depth and width, all writer encoder lists and techniques, all reader encoder lists covering them", "why_tests_cant": "unbounded trees; the stream numbering across nested recordings and the per-encoder grouping couple distant parts of the file", "anchors": ["format/io/writer.go:Writer.Write", "format/io/reader.go:Reader.Read"]}
{"id": "C18", "title": "Reported byte counts agree", "statement": "The number of bytes Write reports equals the number of bytes it handed over before compression, and Read of the result reports that same number; without compression it is the file's length.", "quantifier": "all writable recordings, both compression settings", "why_tests_cant": "must hold for every recording; a miscount in one branch shows only with that shape", "anchors": ["format/io/writer.go:Writer.Write", "format/io/reader.go:Reader.Read", "internal/io/binary/reader.go:TotalRead"]}
{"id": "C19", "title": "Compression does not change what is read", "statement": "Reading a compressed file yields the same recording and count as reading the uncompressed file of the same recording, given that flate decompression inverts compression.", "quantifier": "all writable recordings and every correct compressor", "why_tests_cant": "all recordings", "anchors": ["format/io/writer.go:Writer.Write", "format/io/reader.go:Reader.Read"]}
{"id": "C20", "title": "The result does not depend on map iteration order", "statement": "Whatever order the runtime iterates the metadata maps in, at each of the places the writer does so, the file reads back as the same recording.", "quantifier": "all pairs of iteration orders of every map in the recording", "why_tests_cant": "the order is chosen at random by the runtime; n! orders per map", "anchors": ["format/io/writer.go:accumulateMetdataKeys", "format/io/writer.go:writeMetadata", "format/encoding/event/event.go:Encode"]}
{"id": "C21", "title": "Rejected recordings leave the output untouched", "statement": "If the recording tree holds a nil collection, binary, reference or child, or a collection no registered encoder accepts, at any depth, Write returns an error and has written no byte.", "quantifier": "all recording trees and encoder lists", "why_tests_cant": "position of the offending item is arbitrary in an unbounded tree", "anchors": ["format/io/writer.go:checkForNilInterfaces", "format/io/writer.go:evaluateCollections", "format/io/writer.go:Writer.Write"]}
{"id": "C22", "title": "A truncated file is never mistaken for a recording", "statement": "Reading any strict prefix of an uncompressed file produced by Write returns an error; it does not panic and does not return a recording without error.", "quantifier": "all writable recordings and every truncation point", "why_tests_cant": "every crash point of every file", "anchors": ["format/io/reader.go:Reader.Read", "format/io/reader.go:recursiveBuidRecordings", "internal/io/binary/reader.go"]}
{"id": "C23", "title": "A failing output leaves a prefix and is reported", "statement": "If the output refuses or shortens some write at any point, the bytes it accepted are a prefix of the full file, and Write does not report success; if it reports success the whole file was accepted.", "quantifier": "all recordings, all output behaviours allowed by io.Writer", "why_tests_cant": "every failure point and partial-write length", "anchors": ["format/io/writer.go:errWriter", "format/io/writer.go:Writer.Write"]}
{"id": "C24", "title": "A failing output never makes Write panic", "statement": "If the output fails, Write returns an error rather than panicking.", "quantifier": "all recordings with well-formed binaries, all failing outputs", "why_tests_cant": "every failure point", "anchors": ["format/io/writer.go:recurseRecordingToBytes"]}
{"id": "C25", "title": "Reading does not depend on how the source delivers bytes", "statement": "Reading a file through a source that returns its bytes in arbitrary non-empty pieces gives the same result and count as reading it from memory.", "quantifier": "all files, all ways of splitting the delivery into pieces", "why_tests_cant": "unbounded number of splits", "anchors": ["format/io/reader.go:Reader.Read", "internal/io/binary/util.go:ReadUvarint", "internal/io/binary/reader.go"]}
{"id": "C26", "title": "Reading stops exactly at the end of the recording", "statement": "Reading an uncompressed file followed by arbitrary bytes yields the same recording and leaves exactly those bytes unread, so recordings written one after another are read back in order.", "quantifier": "all recordings and all trailing bytes", "why_tests_cant": "all continuations", "anchors": ["format/io/reader.go:Reader.Read"]}
{"id": "C27", "title": "Files needing an unknown or newer encoder are refused", "statement": "If a file lists an encoder signature that is not registered, or a version newer than the registered encoder's, Read returns an error; with an equal or newer registered version it proceeds.", "quantifier": "all files' encoder lists and all registered encoder lists", "why_tests_cant": "all lists and versions", "anchors": ["format/io/reader.go:readEncoders"]}
{"id": "C28", "title": "Unsupported file versions are refused", "statement": "Any input whose first byte is neither 1 nor 2, and empty input, make Read return an error.", "quantifier": "all byte sequences", "why_tests_cant": "all inputs", "anchors": ["format/io/reader.go:Reader.Read", "format/io/load.go:GetRecoringVersion"]}
{"id": "C29", "title": "Storage technique is recorded in the file", "statement": "A reader configured with any technique for an encoder reads files written with any other technique of that encoder.", "quantifier": "all pairs of techniques and all collections", "why_tests_cant": "all collections for every technique pair", "anchors": ["format/encoding/position/position.go", "format/encoding/euler/euler.go", "format/encoding/float/float.go"]}
{"id": "C30", "title": "Slicing keeps exactly the captures in the interval", "statement": "Slice with a begin and end keeps, in every collection at every depth, exactly the captures with begin <= time < end, in their original order, and changes nothing else (ids, names, metadata, references, number and order of collections and children).", "quantifier": "all recordings and all pairs of float64 bounds (including infinities and NaN)", "why_tests_cant": "all trees, bounds and capture times", "anchors": ["format/slice.go:Slice", "format/collection/enum/collection.go:Slice", "format/collection/euler/collection.go:Slice", "format/collection/event/collection.go:Slice", "format/collection/float/collection.go:Slice", "format/collection/position/collection.go:Slice"]}
{"id": "C31", "title": "Slicing composes", "statement": "Slicing twice equals slicing once with the intersection of the intervals; slicing with the same bounds again changes nothing; consecutive intervals partition the captures.", "quantifier": "all recordings and all bounds", "why_tests_cant": "algebraic law over all inputs", "anchors": ["format/slice.go:Slice"]}
{"id": "C32", "title": "Dropping binaries while slicing drops all and only binaries", "statement": "With binaries disabled, no recording at any depth of the result has binaries while binary references stay; with the default they are all kept.", "quantifier": "all recordings, all option lists", "why_tests_cant": "all trees", "anchors": ["format/slice.go:Slice", "format/slice.go:KeepBinaries"]}
{"id": "C33", "title": "Validation accepts exactly the chronological recordings", "statement": "Validate returns no error exactly when no collection at any depth has a capture whose time is smaller than its predecessor's; with the check disabled it accepts every recording.", "quantifier": "all recordings and option lists", "why_tests_cant": "all trees and sequences", "anchors": ["format/validate.go:Validate"]}
{"id": "C34", "title": "Start, end and duration of a recording are those of its captures", "statement": "For a chronological recording with at least one capture and no NaN times, the reported start is the smallest and the reported end the largest capture time in the whole tree, and if all times are finite the duration is the double nearest to their difference; with no capture start, end and duration are +Inf, -Inf and -Inf.", "quantifier": "all chronological recording trees", "why_tests_cant": "all trees", "anchors": ["format/util.go:RecordingStart", "format/util.go:RecordingEnd", "format/util.go:RecordingDuration"]}
{"id": "C35", "title": "A successful read contains no missing collection", "statement": "If Read returns no error, every collection of the returned recording tree is non-nil.", "quantifier": "all byte sequences", "why_tests_cant": "all inputs, including corrupted ones", "anchors": ["format/io/reader.go:recursiveBuidRecordings"]}
{"id": "C36", "title": "Reading arbitrary bytes never panics", "statement": "Read on any input returns a recording or an error, and does not panic.", "quantifier": "all byte sequences", "why_tests_cant": "all inputs", "anchors": ["format/io/reader.go", "format/metadata/io.go", "format/encoding"]}
{"id": "C37", "title": "Reading always terminates", "statement": "Parsing any finite input reaches a result: recursion depth of nested recordings and nested metadata is bounded by the number of input bytes.", "quantifier": "all byte sequences", "why_tests_cant": "all inputs, adversarial nesting included", "anchors": ["format/io/reader.go:recursiveBuidRecordings", "format/metadata/io.go:ReadProperty"]}
{"id": "C38", "title": "Rotation angles stored in 16 bits", "statement": "With the 16-bit rotation technique every decoded angle of a collection with two or more captures lies strictly between 0 and 360 and is within 360/2^17 degrees plus rounding of the original angle reduced to [0,360).", "quantifier": "all finite angles of magnitude up to 2^30 degrees, all capture counts", "why_tests_cant": "continuous range, wrap-around at multiples of 360", "anchors": ["format/encoding/euler/raw16.go", "format/encoding/euler/raw16.go:wrapEulerAngle"]}
{"id": "C39", "title": "Decoding yields one capture per time", "statement": "For every encoder, decoding with any times supplied yields either an error or exactly one capture per time, carrying that time, in order.", "quantifier": "all data, headers and time lists", "why_tests_cant": "all inputs", "anchors": ["format/encoding/enum/enum.go:Decode", "format/encoding/event/event.go:Decode", "format/encoding/euler/euler.go:Decode", "format/encoding/position/position.go:Decode", "format/encoding/float/float.go:Decode"]}
{"id": "C40", "title": "Recording summaries count everything once", "statement": "The numbers of position, euler, event, enum and other captures printed by the summarise command are those of the whole tree: every capture of every recording at any depth is counted exactly once, under the type of its collection. The number of sub-recordings printed is that of the direct children. The recording's name, the size of the file in a fitting unit and the duration precede them.", "quantifier": "all recording trees", "why_tests_cant": "all trees", "anchors": ["cmd/rap-cli/summarize.go"]}
{"id": "C41", "title": "Enum captures parsed from JSON name the right member", "statement": "For every enum collection parsed from JSON, the member designated by each capture is the string given for that capture.", "quantifier": "all JSON enum collections", "why_tests_cant": "needs two different members; all lists", "anchors": ["format/parsing/json.go:parseEnumCollection"]}
{"id": "C42", "title": "Metadata parsed from JSON is kept or reported", "statement": "Parsing a JSON recording whose metadata object cannot be represented reports an error; otherwise the metadata has exactly the object's keys.", "quantifier": "all JSON metadata objects", "why_tests_cant": "all objects", "anchors": ["format/parsing/json.go:parseMetadata", "format/metadata/utils.go:getProperties"]}
{"id": "C43", "title": "JSON numbers, strings and containers map to metadata by fixed rules", "statement": "Each JSON value kind becomes the documented metadata kind: integral numbers an int32, other numbers a float32, RFC3339 strings a time, 0x strings bytes, {x,y}/{x,y,z} objects vectors, other objects blocks, homogeneous arrays typed arrays.", "quantifier": "all JSON values", "why_tests_cant": "all values of unbounded nesting", "anchors": ["format/metadata/utils.go:getProperties"]}
{"id": "C44", "title": "CSV import groups every row exactly once", "statement": "Importing CSV yields one recording per distinct pair of id and name, holding one position collection; each data row contributes exactly one capture to its group, in row order, with the row's time and coordinates.", "quantifier": "all CSV tables", "why_tests_cant": "all tables and groupings", "anchors": ["cmd/rap-cli/csv.go:RecordingFromCSV"]}
{"id": "C45", "title": "Version 1 recordings convert completely", "statement": "Converting a version 1 recording keeps every subject as a child recording with its position, rotation, event and life-cycle captures in order and with their times, and its metadata keys; event dictionary values arrive as the given strings.", "quantifier": "all version 1 recordings", "why_tests_cant": "all protobuf messages", "anchors": ["internal/io/rapv1/util.go:protobufToStd"]}
{"id": "C46", "title": "Upgraded version 1 recordings can always be written", "statement": "Any converted version 1 recording is accepted by a writer with the default encoders and reads back with the same tree.", "quantifier": "all version 1 recordings", "why_tests_cant": "composition over all inputs", "anchors": ["internal/io/rapv1/util.go", "format/io/writer.go:NewRecoludeWriter"]}
{"id": "C47", "title": "The writer picks the first encoder that accepts", "statement": "Each collection is encoded by the first registered encoder accepting it; encoders accepting nothing do not appear in the file; each used encoder appears once with one header.", "quantifier": "all encoder lists and recording trees", "why_tests_cant": "all combinations", "anchors": ["format/io/writer.go:evaluateCollections"]}
{"id": "C48", "title": "Each metadata key is stored once", "statement": "The file's key table holds each distinct metadata key used by recordings, references and binaries of the tree exactly once, and every key used is in it.", "quantifier": "all recording trees and map iteration orders", "why_tests_cant": "all trees", "anchors": ["format/io/writer.go:accumulateMetdataKeys"]}
{"id": "C49", "title": "16-bit float error is bounded", "statement": "Floats stored with the 16-bit technique come back at the same times, each off by at most (largest - smallest)/2^17 plus the rounding of the range to single precision, whatever the order and number of captures.", "quantifier": "all float collections whose values are finite and at most 2^126 in magnitude", "why_tests_cant": "continuous values; the range is rounded to single precision on disk but not while encoding", "anchors": ["format/encoding/float/float.go"]}
{"id": "C50", "title": "JSON documents parse to the recording they describe", "statement": "A document accepted by FromJSON yields the recording it describes: identifier, name, sub-recordings, references, collections and captures in document order with their times and values; and every document describing a recording by the documented format is accepted.", "quantifier": "all JSON documents of any depth", "why_tests_cant": "documents of unbounded nesting and size", "anchors": ["format/parsing/json.go"]}
{"id": "C51", "title": "from-csv loses nothing", "statement": "The file the from-csv command writes for an accepted table is loaded as exactly the recording built from the table: same groups, and every capture with bit-identical time and coordinates.", "quantifier": "all CSV tables and map iteration orders", "why_tests_cant": "all tables and floats", "anchors": ["cmd/rap-cli/main.go:from-csv", "cmd/rap-cli/csv.go:RecordingFromCSV", "format/io/load.go:Load"]}
{"id": "C52", "title": "from-json writes a loadable file", "statement": "For every document accepted by FromJSON, the from-json command writes a file which Load reads as the same tree: same identifiers, names, children, references and metadata, and each collection up to the precision of its technique.", "quantifier": "all accepted JSON documents", "why_tests_cant": "documents of unbounded nesting and kinds of metadata", "anchors": ["cmd/rap-cli/main.go:from-json", "format/parsing/json.go:FromJSON", "format/io/load.go:Load"]}
{"id": "C53", "title": "Conversion commands report every failure", "statement": "from-csv, from-json and upgrade end without an error only if their input was accepted and their output took every byte of the file; an input that is not accepted is reported and leaves the output untouched; an output that refuses bytes is reported and holds a prefix of the file.", "quantifier": "all inputs and all outputs that may fail at any byte", "why_tests_cant": "outputs can fail at any byte of any file", "anchors": ["cmd/rap-cli/main.go:from-csv", "cmd/rap-cli/main.go:from-json", "cmd/rap-cli/main.go:upgrade"]}
{"id": "C54", "title": "Version 1 files are accepted only whole", "statement": "Load accepts a file whose first byte is 1 only if it announces exactly one recording, holds every compressed byte it announces, and those bytes inflate and unmarshal; the result is then the conversion of that recording and the byte count is what was consumed. Every proper prefix of an accepted file without trailing bytes is rejected.", "quantifier": "all byte strings, all inflated and unmarshalled contents", "why_tests_cant": "every cut position of every file and every announced length", "anchors": ["internal/io/rapv1/util.go:ReadRecording", "internal/io/rapv1/util.go:getNumberOfRecordings", "format/io/load.go:Load"]}
{"id": "C55", "title": "Metadata survives JSON", "statement": "Every metadata property is written by MarshalJSON as a JSON text, and reading that text gives the same property back. It is known to fail for integral float32s, byte strings of length one, empty arrays, times beyond 292 years of 1970, texts with control characters, and blocks whose keys are x and y; infinities and NaNs are errors.", "quantifier": "all metadata trees", "why_tests_cant": "trees of unbounded depth, every float and every string", "anchors": ["format/metadata/property.go:MarshalJSON", "format/metadata/utils.go:getProperties"]}
{"id": "C56", "title": "to-json writes a JSON document that shows the recording, or reports an error", "statement": "For every recording, the command to-json either reports an error or writes a JSON text whose value holds the id, name and metadata of the recording, its collections with the number of their captures, its events with their times to within a millionth, and its child recordings in the same form. It is known to fail: names are not escaped, errors in child recordings and of the output are dropped, infinite times are written as +Inf, nil collections panic, and the document of a recording with collections is not accepted by from-json.", "quantifier": "all recordings (any tree of recordings, any collections and metadata)", "why_tests_cant": "trees of unbounded depth, every string, float and metadata value; a test sees one document and not that a text is not JSON for any reading", "anchors": ["cmd/rap-cli/json.go:toJson", "cmd/rap-cli/main.go:to-json"]}
{"id": "C57", "title": "Start, end, duration and event count of a version 1 recording", "statement": "GetStartOfRecording and GetEndOfRecording return the earliest and the latest time among all custom events, positions, rotations and life-cycle events of the recording and its subjects, in whatever order they are stored, passing over NaN; without any such time they return +Inf and -Inf. The duration is the double nearest to the difference, CountRecordingCustomEvenets counts the events of the recording and of every subject, and for a chronological recording the results agree with RecordingStart and RecordingEnd of the converted recording.", "quantifier": "for all version 1 recordings: any number of subjects, captures in any order, any float32 times including NaN and infinities", "why_tests_cant": "The loops run over four kinds of captures in any number of subjects; a test would have to place the extreme time in each kind, position and order and combine it with NaN and infinite times.", "anchors": ["internal/io/rapv1/util.go:GetStartOfRecording", "internal/io/rapv1/util.go:GetEndOfRecording", "internal/io/rapv1/util.go:GetRecordingDuration", "internal/io/rapv1/util.go:CountRecordingCustomEvenets"]}
{"id": "C58", "title": "The typed UnmarshalJSON methods read back what MarshalJSON wrote", "statement": "For every property that JSON can carry, UnmarshalJSON of its own type applied to the text that MarshalJSON wrote returns an equal property; a text of another kind of value is an error, null gives the zero value, a vector takes the last number among members named x/X, y/Y, z/Z and ignores the others, and no text makes a method panic. It is known to fail: a byte panics on null, an empty string and 0x, an array panics on null and [], and the texts of boolean arrays held as ArrayProperty and of one-byte binary arrays are refused by their own type.", "quantifier": "for all properties of every type, all texts and all JSON values", "why_tests_cant": "The claim ranges over every string, float, nested block and array, and over every text that a reader may be handed; the panics occur only for particular degenerate texts.", "anchors": ["format/metadata/property.go:UnmarshalJSON", "format/metadata/property.go:MarshalJSON", "format/metadata/property.go:UnmarshalNewByteProperty", "format/metadata/utils.go:getProperties"]}
{"id": "C59", "title": "A value that is cut off is never taken for a whole one", "statement": "If the bytes written for an integer, a string, a block of bytes, a list of strings, a list of integers or a metadata value are cut off anywhere before their end, the reader of that value returns an error after consuming what is there, whatever error the source ends with; it neither panics nor returns a value. Hence the bytes of one metadata value are never the beginning of those of a different one.", "quantifier": "for all values, all cutting points and all errors at the end of the source", "why_tests_cant": "Cutting every value of every nested shape at every position is unbounded; a test fixes one value and one position.", "anchors": ["internal/io/binary/util.go:ReadUvarint", "internal/io/binary/uint.go:ReadUvarIntArray", "internal/io/binary/string.go:ReadString", "internal/io/binary/string.go:ReadStringArray", "internal/io/binary/bytes.go:ReadBytesArray", "format/metadata/io.go:ReadProperty"]}
{"id": "C60", "title": "Whatever can be loaded can be saved again", "statement": "If Read accepts an input, of whatever origin and however it is delivered, then either the recording has a nil collection, and Write returns an error before writing anything, or Write succeeds with every selection of encoders that has one for each signature the reader knows, and reading the written file gives the same tree with each collection as its technique stores it; with lossless techniques and 64-bit times it gives the very recording that was loaded. The upgrade command therefore works on every file that loads, returns the error of a file that does not, and reports success only when its output is a complete file.", "quantifier": "for all inputs accepted by Read, all sources, all selections of encoders and techniques, all map iteration orders", "why_tests_cant": "The claim starts from arbitrary accepted bytes, including files no writer of the package produced; tests only save recordings they built.", "anchors": ["format/io/reader.go:Read", "format/io/reader.go:recursiveBuidRecordings", "format/metadata/io.go:readPropData", "format/io/writer.go:Write", "cmd/rap-cli/main.go:upgrade"]}
{"id": "C61", "title": "What the benchmark command prints", "statement": "On every file that Load accepts and that leaves no collection nil, the benchmark does not panic and prints the same description twice, of the recording loaded and of the one saved compactly and read back: name, number of collections, name, signature and number of captures of each, number of children. A nil collection makes it panic. The two sizes it prints do not measure the same thing: for a compressed file the original size is that of the uncompressed file, the new size that of a compressed one.", "quantifier": "for all accepted inputs, sources, map iteration orders and elapsed times", "why_tests_cant": "The command has no tests; agreement of the two descriptions depends on every recording the reader can produce.", "anchors": ["cmd/rap-benchmark/main.go:printRecording", "cmd/rap-benchmark/main.go:kb", "cmd/rap-benchmark/main.go:main"]}
{"id": "C62", "title": "Files follow one fixed byte format", "statement": "A grammar, independent of the code that writes and reads, says which bytes stand for which recording: numbers of variable length, little-endian floats, bit order and axis order of the halving codes, signatures, type codes, the order of all parts. Everything Write produces follows it and stands for the recording as the chosen techniques store it; Read gives, for every file that follows it, the recording it stands for, also for files Write never produces (repeated or reordered tables, arbitrary padding); and no file stands for two recordings. So a change that keeps writer and reader consistent with each other but alters the format is excluded.", "quantifier": "for all recordings, techniques, compressors, map iteration orders, and all files that follow the grammar", "why_tests_cant": "Tests write and read with the same code, so they cannot see a symmetric change of the format, and they never read a file another program could have written.", "anchors": ["format/io/writer.go:Write", "format/io/reader.go:Read", "format/io/time.go:encodeTime", "format/io/time.go:decodeTime", "format/encoding/position/oct48.go:encodeOct48", "format/metadata/io.go:readPropData", "internal/io/binary/util.go:UnsignedFloatBSTToBytes"]}
{"id": "C63", "title": "Every io.Reader that keeps its contract will do", "statement": "For every implementation of io.Reader whose calls hand out at least one byte or the final error - however many bytes it chooses to hand out at each call, and whether or not it reports the end together with the last bytes - and for every way the decompressor hands out its bytes, Read of a file that is not of version 1 succeeds exactly if it succeeds on the same bytes in memory, with the same recording, count and remaining bytes. (Readers that return no byte and no error, which the contract allows but discourages, are misread without an error.)", "quantifier": "all readers keeping the contract, all decompressors' delivery behaviours, all files that are not of version 1", "why_tests_cant": "Tests read from bytes.Buffer and files, which always fill the buffer and never report the end together with data; the delivery behaviour of a reader is an arbitrary state machine.", "anchors": ["format/io/reader.go:Reader.Read", "internal/io/binary/util.go:ReadUvarint", "internal/io/binary/reader.go:ErrReader.Read"]}
{"id": "C64", "title": "The text of a metadata value is determined by the value", "statement": "String gives the same text for the same metadata, whatever order Go iterates its maps in: a block lists every key once, in ascending order, with the text of its value; numbers are in decimal; an array shows the type code of its items and their number. It panics on a nil value inside a block and on nothing else. (Two things fail: binary and boolean arrays always show too large a number, as the bytes of the length prefix are counted as items, and since keys and strings are not quoted different values can have the same text.)", "quantifier": "all metadata values, all map iteration orders, all ways of printing floats", "why_tests_cant": "Go randomises map iteration, so a run sees one order; tests show a few blocks and never a binary array.", "anchors": ["format/metadata/property.go:MetadataProperty.String", "format/metadata/property.go:ArrayProperty.String", "format/metadata/property.go:ArrayPropertyRaw.String", "format/metadata/property.go:Int32Property.String"]}
{"id": "C65", "title": "Saving again what was loaded loses nothing more", "statement": "Take a recording of the package's own collections, save it with encoders that store 64-bit floats, 32-bit floats or (for collections that do not have exactly one capture) angles of 16 bits, and times of 64 or 32 bits, and load it. Saving what was loaded with the same encoders, compressed or not and with any order of the maps, and loading that file gives exactly the recording that the first load gave. For the remaining techniques this is false: values and times in 16 bits, positions in octree cells and a single rotation of 16 bits change again.", "quantifier": "all recordings, all values (also NaN and infinities), all lists of encoders with these techniques, all map orders, both compression settings", "why_tests_cant": "idempotence of the quantisation is a statement about all 2^64 angles: it depends on where the 2^16 steps of 360/65536 fall on the float grid, and a single angle that moves would not be found by sampling", "anchors": ["format/io/writer.go:Write", "format/io/reader.go:Read", "format/encoding/euler/raw16.go:encodeRaw16", "format/encoding/euler/raw16.go:decodeRaw16", "internal/io/binary/util.go:UnsignedFloatBSTToBytes"]}
{"id": "C66", "title": "A recording is no larger than the file it came from", "statement": "Whatever bytes Read is given, the number of bytes it reports is never more than the source holds (or, after the compression flag, than the bytes up to the flag and the decompressed bytes together). Unless the file is of version 1, the recording returned holds at most that many units, where every recording, collection, capture, enum member, metadata entry, array element, binary and reference is one unit, and so is every byte of names, texts and data; only texts of metadata keys, event names and enum members, which the file stores once and the blocks share, are not counted. A number in the file cannot by itself make Read return a large object.", "quantifier": "all byte strings, well formed or not, all orders of the built-in encoders, both compression settings, every decompressor; every honest io.Reader", "why_tests_cant": "unbounded space of hostile inputs; a fuzzer cannot show that no short file yields a huge recording", "anchors": ["format/io/reader.go:Read", "format/io/reader.go:recursiveBuidRecordings", "format/metadata/io.go:readPropData", "format/io/time.go:decodeTime", "format/encoding/enum/enum.go:Decode", "format/encoding/event/event.go:Decode"]}
{"id": "C67", "title": "Collections answer about exactly their captures", "statement": "For every collection: CaptureAt(i) returns the i-th capture with its time if 0 <= i < Length() and panics otherwise; Captures() returns all of them in order, none nil; Start(), End() and CollectionDuration panic exactly for collections without captures, otherwise they use the first and the last capture. For captures in chronological order (without NaN) Start and End are the earliest and latest time, and the duration is the difference of these, rounded to the nearest double. Without the order this is false: the duration can be negative.", "quantifier": "all collections of all kinds (also from outside the package), all indices, also negative ones", "why_tests_cant": "the five packages repeat the methods; an index or an empty collection that no test uses, and the rounding of the difference, are only covered by quantifying over all of them", "anchors": ["format/collection/position/collection.go:Captures", "format/collection/position/collection.go:CaptureAt", "format/collection/position/collection.go:Start", "format/collection/position/collection.go:End", "format/collection/position/collection.go:Length", "format/collection/euler/collection.go:Captures", "format/collection/euler/collection.go:CaptureAt", "format/collection/euler/collection.go:Start", "format/collection/euler/collection.go:End", "format/collection/euler/collection.go:Length", "format/collection/event/collection.go:Captures", "format/collection/event/collection.go:CaptureAt", "format/collection/event/collection.go:Start", "format/collection/event/collection.go:End", "format/collection/event/collection.go:Length", "format/collection/enum/collection.go:Captures", "format/collection/enum/collection.go:CaptureAt", "format/collection/enum/collection.go:Start", "format/collection/enum/collection.go:End", "format/collection/enum/collection.go:Length", "format/collection/float/collection.go:Captures", "format/collection/float/collection.go:CaptureAt", "format/collection/float/collection.go:Start", "format/collection/float/collection.go:End", "format/collection/float/collection.go:Length", "format/encoding/util.go:CollectionDuration"]}
{"id": "C68", "title": "The size of every storage technique", "statement": "The block of a collection of n captures written by the position, rotation or float encoder has a size that depends only on the technique and n (for positions: 1+24n, 1+12n, 37+6(n-1), 37+3(n-1) bytes for Raw64, Raw32, Oct48, Oct24, with less for n<2; for rotations 1+30n, 1+12n, 1+6n; for floats 1+8n, 1+4n, 9+2n), and these encoders put nothing into the header. Times take 8n, 4n or 8+2(n-1) bytes besides technique and count. The byte counts reported by two successful Writes of the same recording with other techniques differ by exactly the sum of these differences, compressed or not; nothing else depends on the techniques. Oct48, Oct24 and BST16 are smaller than 32-bit values only from 6, 4 and 5 captures on.", "quantifier": "all recordings (collections up to 2^48 captures), all lists of encoders of the same kinds, all techniques, all map orders, both compression settings", "why_tests_cant": "the claim is about all sizes: counts crossing the boundaries of variable-length numbers, and every position of a collection in a tree of recordings", "anchors": ["format/encoding/position/position.go:Encode", "format/encoding/position/oct48.go:encodeOct48", "format/encoding/position/oct24.go:encodeOct24", "format/encoding/euler/euler.go:Encode", "format/encoding/float/float.go:Encode", "format/io/writer.go:Write", "format/io/writer.go:recurseWrite", "format/io/time.go:encodeTime"]}
{"id": "C69", "title": "Numbers in texts are correctly rounded", "statement": "The String methods of captures and of metadata and the summary command print numbers with two (or, for metadata, six) decimals. The text is that of the nearest such decimal of the exact value of the float, halfway cases to the even digit, with a minus sign exactly if the sign bit is set (also for -0.00), NaN, +Inf and -Inf otherwise; there is exactly one such text. Numbers with the same text differ by at most one unit of the last place. The text of each kind of capture is determined by its time and values; captures of any kinds with the same text are at most 0.01 s apart, but beyond the time the text is ambiguous (an event can be named like a number). A summary shows the size of the file in b, kb or mb rounded to two decimals, so that the last five sizes below a megabyte are shown as 1024.00kb.", "quantifier": "all float64 and float32 bit patterns, any number of decimals, all captures, all sizes up to 2^53", "why_tests_cant": "there are 2^64 doubles, and the interesting ones (halfway cases, values whose rounding carries into the next digit or unit) are rare", "anchors": ["format/collection/enum/capture.go:String", "format/collection/euler/capture.go:String", "format/collection/event/capture.go:String", "format/collection/float/capture.go:String", "format/collection/position/capture.go:String", "format/metadata/property.go:String", "cmd/rap-cli/summarize.go:printSize", "cmd/rap-cli/summarize.go:printSummary"]}
{"id": "C70", "title": "Numbers, texts and times survive as JSON", "statement": "json.Marshal and json.Unmarshal, strconv and time, as the metadata calls them, lose nothing: every finite double is written as a JSON number (RFC 8259) that is read as this double and no other; every finite float32 as a number from which the same float32 is made; whole numbers up to 2^53 come back as integers from strconv.Atoi; every UTF-8 text is escaped without loss; a time is written as an RFC 3339 text of exactly this time (Gregorian calendar, nanoseconds, any time zone), and any RFC 3339 text is read as its time in whole microseconds. So metadata that JSON can carry, written as JSON, is read back as it was, without assumptions about the standard library.", "quantifier": "all doubles, all float32s, all byte strings, all times of 64 bit nanoseconds, all RFC 3339 texts, all time zones below 24 hours, all metadata that JSON can carry", "why_tests_cant": "round trips of numbers depend on rounding in both directions for 2^64 bit patterns; the calendar on 400 year cycles; texts on every code point", "anchors": ["format/metadata/property.go:MarshalJSON", "format/metadata/property.go:UnmarshalJSON", "format/metadata/utils.go:getProperties", "cmd/rap-cli/json.go:toJson"]}
{"id": "C71", "title": "Arithmetic on floats is that of IEEE 754", "statement": "The operations the code computes floats with (+, -, *, / and comparisons on float64, - on float32, math.Floor, conversions between integers, float64 and float32) give, for every pair of bit patterns, what IEEE 754 and the Go specification say: the exact result rounded to nearest (ties to even) with overflow to infinity, the sign of zeros, infinities where a non-zero number is divided by zero or an infinity takes part, and NaN for NaN operands, infinities cancelling, 0 times infinity, 0/0 and infinity over infinity.", "quantifier": "all pairs of bit patterns of float64 and float32, all integers", "why_tests_cant": "2^128 pairs of operands; special values and ties are rarely sampled, and every bound on storage errors rests on this arithmetic", "anchors": ["internal/io/binary/util.go:UnsignedFloatBSTToBytes", "internal/io/binary/util.go:BytesToUnisngedFloatBST", "format/encoding/euler/raw16.go:wrapEulerAngle", "format/encoding/position/oct24.go:encodeOct24", "format/io/time.go:encodeTimeBST16", "format/encoding/float/float.go:decodeBST16", "format/metadata/utils.go:getProperties"]}
{"id": "C72", "title": "Stream data that ends early", "statement": "Decoding the data or the capture times of a collection of which anything is missing at the end returns an error. True for floats, events and enum values. False for positions and rotations: single-precision positions (missing components become 0), single-precision rotations (the values of the capture before are repeated) and angles of two bytes never report an error; double-precision data is accepted if one byte of the last component is there, the rest being taken from the component before; octree data is accepted if its nine leading floats are there, missing movements being repetitions of the last. False for capture times: missing doubles and singles are read as 0, missing compressed differences as repetitions of the last. The theorems state exactly what is returned for every byte string and every list of times.", "quantifier": "all byte strings given as stream data or capture times, all lists of capture times, all techniques; all well-formed blocks cut at any place", "why_tests_cant": "the number of damaged inputs is unbounded, and a decoder that invents captures looks like one that works", "anchors": ["format/encoding/position/raw32.go:decodeRaw32", "format/encoding/position/raw64.go:decodeRaw64", "format/encoding/position/oct24.go:decodeOct24", "format/encoding/position/oct48.go:decodeOct48", "format/encoding/euler/raw16.go:decodeRaw16", "format/encoding/euler/raw32.go:decodeRaw32", "format/encoding/euler/raw64.go:decodeRaw64", "format/encoding/float/float.go:Decode", "format/encoding/event/event.go:Decode", "format/encoding/enum/enum.go:Decode", "format/io/time.go:decodeTime"]}
{"id": "C73", "title": "Version 1 messages in the protobuf wire format", "statement": "A version 1 file is loaded without error exactly if its decompressed data is a serialisation of a recording in the protobuf wire format with the fields of recording.proto, and the result is that recording: fields in any order; of a string, number or float given twice the last counts; repeated messages are collected in order; of equal keys of a map the last counts, and keys or values left out are empty; unknown fields and fields in another wire type, also groups, are skipped; strings must be UTF-8. Bytes are a serialisation of at most one recording, up to the order of maps.", "quantifier": "all byte strings as decompressed data, all orders in which Go goes through maps, all recordings", "why_tests_cant": "serialisations of one message are infinitely many (orders, paddings, unknown fields), and tests only see those of one writer", "anchors": ["internal/io/rapv1/util.go:ReadRecording", "internal/io/rapv1/recording.pb.go:Recording", "internal/io/rapv1/recording.pb.go:SubjectRecording", "internal/io/rapv1/recording.pb.go:CustomEventCapture", "internal/io/rapv1/recording.pb.go:LifeCycleEventCapture", "internal/io/rapv1/recording.pb.go:VectorCapture"]}
{"id": "C74", "title": "Texts as numbers", "statement": "Metadata strings of version 1 files and cells of CSV tables are numbers exactly if they are floating-point literals of Go (decimal or hexadecimal, with a sign, underscores between digits, and without the need for a point), the words inf, infinity or nan in any case, and in range; the result is the nearest float32 or double, ties to even, with the sign of the text. White space around cells, and only that, is dropped before. For texts of more than 2000 bytes with exponents of six digits this is false.", "quantifier": "all texts whose exponent has at most five digits or whose length is at most 2000; all metadata maps and tables of such texts", "why_tests_cant": "texts are infinitely many; half-way cases and the places of underscores are not found by trying out some", "anchors": ["internal/io/rapv1/util.go:convertMetadata", "cmd/rap-cli/csv.go:RecordingFromCSV"]}
{"id": "C75", "title": "JSON documents are read as RFC 8259 says", "statement": "The bytes given to FromJSON are accepted as JSON exactly if the UTF-8 text made of them (each byte that starts no UTF-8 character replaced by U+FFFD) is a JSON text by the grammar of RFC 8259 with at most 10000 arrays and objects inside each other and all numbers in range; the value is the one the grammar assigns, numbers being the nearest doubles, and of members with equal names the last one counts. So a recording parsed from bytes is the one the text describes, every text of the documented form gives the recording it describes, and everything else is refused with an error. For numbers of more than 2000 bytes with exponents of six digits this is false.", "quantifier": "all byte strings whose numbers have an exponent of at most five digits or at most 2000 bytes, all nesting depths", "why_tests_cant": "documents are unbounded; invalid UTF-8, repeated names, surrogates and the nesting limit combine in ways that are not enumerated", "anchors": ["format/parsing/json.go:FromJSON", "format/metadata/property.go:MetadataProperty.UnmarshalJSON"]}
{"id": "C76", "title": "Writing metadata as text and reading it again changes nothing", "statement": "parseMetadata does not convert the metadata object of a document directly: it writes it as JSON text and parses that text. Whatever value was read from a document, the text written for it is read as the same value except for the order of members, and does not depend on the order in which maps are iterated. So the metadata is the same map as if the object had been converted directly, and if the object cannot be converted, neither can the text.", "quantifier": "all documents that are accepted, all values inside them, all metadata", "why_tests_cant": "numbers, texts with bytes that are not UTF-8, surrogates, HTML escapes and nesting depth all pass the detour; only samples can be tried", "anchors": ["format/parsing/json.go:parseMetadata", "format/metadata/property.go:UnmarshalJSON"]}
{"id": "C77", "title": "Metadata written as JSON is read back by Go's own JSON reader", "statement": "What the library writes for a property nested at most 10000 deep, Go's json.Unmarshal reads: no property of Go's reader that the JSON grammar does not have (the depth limit, replaced bytes, merged names, cut off exponents) shows on it. Metadata JSON can carry comes back as the same metadata through MetadataProperty, and every value its own type can read comes back through its own UnmarshalJSON, with strconv reading the integers and float32s. Whatever is written for a block is accepted as an object, even if it is not portable.", "quantifier": "all metadata nested at most 10000 deep, all time zones with offsets of whole minutes below 24 hours", "why_tests_cant": "float32s, doubles, texts and depths up to 10000 have too many combinations to try; the grammar and the reader differ in rare places only", "anchors": ["format/metadata/property.go:MarshalJSON", "format/metadata/property.go:UnmarshalJSON"]}
{"id": "C78", "title": "A recording saved with the default writer is loaded with known accuracy", "statement": "A recording built from positions, rotations, events and enums is saved by NewRecoludeWriter without error, and Load reads the same tree: ids, names, metadata, binaries, references, event names and metadata, enum members and values are identical; each angle is the nearest float32; the i-th position is off by at most i times 1/131072 of the spread of the steps on that axis, and the i-th time by at most i times 1/131072 of the largest gap, apart from rounding. A recording with a float collection anywhere in its tree is refused and nothing is written.", "quantifier": "all recordings without nil parts, all files up to the size limit", "why_tests_cant": "the bounds are for all paths and all times, and hold for the configuration of writer and loader together; tests compare a few captures with a tolerance", "anchors": ["format/io/writer.go:NewRecoludeWriter", "format/io/load.go:Load"]}
{"id": "C79", "title": "What the UnmarshalProperty methods accept", "statement": "Vector2Property.UnmarshalProperty and MetadataProperty.UnmarshalProperty return an error for every argument. No UnmarshalProperty accepts a map, or a slice of two or more integers; all return an error and none crashes. Of the integers Int32Property accepts exactly those in the range of int32; of the bytes ByteProperty accepts exactly 10 to 99. An empty slice crashes ArrayProperty, an empty string crashes ByteProperty. The text its own MarshalJSON writes is accepted by every other type, by bytes and times without its quotes.", "quantifier": "all arguments (strings, integers, booleans, slices, maps with strings as keys), all properties", "why_tests_cant": "the methods have no tests; an error for every argument is a statement about all arguments", "anchors": ["format/metadata/property.go:UnmarshalProperty"]}
{"id": "C80", "title": "Metadata written as BSON", "statement": "MetadataProperty.MarshalBSON writes a BSON document (sizes, types, names and ends as the BSON specification has them) whose values are those of the metadata: texts, integers, booleans and vectors unchanged, floats as doubles of the same value, bytes as integers, arrays with the numbers from zero as names, times cut to whole milliseconds, also before 1970. A document has one reading, so metadata written as the same bytes stand for the same BSON values. Nothing is written if a key contains a zero or the document reaches 2 GiB. The types of the properties are not kept: a byte and an integer, a vector and a block of its components, times within a millisecond are written alike.", "quantifier": "all blocks of metadata with texts in UTF-8, keys without zeros, times within 292 years of 1970 and a size below 2 GiB", "why_tests_cant": "a size or a name can be wrong only for some nestings and lengths; the one test writes one document of small values", "anchors": ["format/metadata/property.go:MarshalBSON", "format/metadata/property.go:MarshalBSONValue"]}
{"id": "C81", "title": "How accurately a recording saved by the program is loaded", "statement": "A recording whose collections are positions, rotations, events and enums is saved by the writer of the commands from-json and upgrade, and Load reads the file as the same tree with the same ids, names, metadata, binaries, references, event names, event metadata and enum values. Times in order stay in order, the i-th off by at most i/131072 of the largest gap; on each axis the i-th position is off by at most i/512 of the range of the steps; angles are off by at most 1/131072 of a turn, whole turns aside; apart from rounding. This holds for every converted version 1 recording, and for every recording that from-json reads.", "quantifier": "all well-formed recordings with these kinds of collections, all version 1 recordings, all lawful compressors and orders of maps", "why_tests_cant": "errors add up over the captures of a collection and depend on every difference between neighbours", "anchors": ["cmd/rap-cli/main.go:BuildApp", "format/encoding/position/oct24.go:encodeOct24", "format/encoding/euler/raw16.go:encodeRaw16", "format/io/writer.go:Write"]}
