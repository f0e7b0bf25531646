# Formal model of recolude/rap — design

Source: `/repo` (Go), read as text. Model and proofs: `/verif/lean` (Lean 4.33 + Mathlib, kernel-checked).

## How the model is built

* **Bytes, strings.** `Bytes = List UInt8`. Go strings are arbitrary byte strings.
* **Errors and panics.** Errors are values (`Err`); Go panics (index out of range, nil dereference, failed
  type assertion, `makeslice: len out of range`, explicit `panic`) are a separate outcome (`Panic`), so "returns an
  error" and "panics" are different statements.
* **Reading.** Code that consumes an `io.Reader` is a *reader program* (`Prog`): a tree of `Read(p)` and
  `io.ReadFull` calls whose continuations receive exactly what Go receives (bytes, error). A program is run against a
  source: bytes in memory (`Flat`), an `ErrReader` around a source (`ER`), a source that hands its bytes out
  in pieces (`Chunked`). C60 and C61 hold for every source that returns no more bytes than asked for (`Bounded`). The semantics `clean` is "every read is satisfied"; it is the basis of the
  round-trip proofs, and is transferred to each source by one induction over programs.
* **Writing.** Writer programs (`WProg`) and `errWriter` (`EW`) over an arbitrary output (`Snk`): a `Write` may accept
  any number of bytes and return any error. `LawfulSnk` is the contract of `io.Writer` (fewer bytes than given only with
  an error, accepted bytes are appended); `Remembers` says that an output that failed keeps failing. Concrete outputs:
  `Buf` (memory), `Disk` (full after n bytes), `Drain`.
* **Maps.** A Go map is an association list; its order is the order in which the runtime iterates it.
  Theorems quantify over all such lists, hence over all iteration orders. Where the code iterates one map twice
  (key table, then body) two independently ordered copies are used.
* **Floats.** IEEE-754 binary64/binary32 are bit patterns (`BitVec 64/32`) with concretely defined comparison,
  addition, subtraction, multiplication, division, floor, float64<->float32 conversion (round to nearest, ties to
  even). Nothing about floats is assumed: the operations are defined in `Model/Float.lean`, checked against
  hardware floats by evaluation outside the proofs, and their error bounds are proved. What a bit pattern means as a number
  is defined again, independently, in `Spec/Number.lean` and `Spec/Rounding.lean`, and the two are proved to agree.
* **Recursion over the input.** Functions that recurse on untrusted data take fuel; a theorem shows that the fuel
  used is always enough.
* **Text formats.** JSON and CSV documents enter the model as parsed values (`JVal`, tables of strings); C75 puts a model of the JSON
  parser in front. JSON *output* is
  modelled as bytes; what a text means is defined by the grammar of RFC 8259 (`JText` in `Spec/JsonText.lean`), and the
  theorems about output say which values the written bytes are texts of.

## Layout

`lean/Verif/Model/*` the code, definition by definition, with file:line citations; `lean/Verif/Spec/*` the few
independent specification notions; `lean/Verif/Proof/*` lemmas; `lean/Verif/Props/*` the property theorems, each with a
concrete non-trivial instance next to it. A property found to be false has a theorem exhibiting the counterexample, and
one or more theorems with suffix `_partial` for what does hold. `MANIFEST.json` lists the theorems per property;
`seeded/LOG.jsonl` records the wrong programs the theorems were tried on.

## What is modelled

| model file | Go code |
|---|---|
| `Binary`, `Prog`, `Sink` | internal/io/binary/*.go (uvarints, strings, byte arrays, `ErrReader`), `errWriter` of format/io/writer.go |
| `Float` | the float64 and float32 operations used |
| `Bst` | internal/io/binary/util.go (`UnsignedFloatBSTToBytes`, `BytesToUnisngedFloatBST`) |
| `Metadata` | format/metadata/{io,metadata,property}.go: property types, codes, `Data`, `ReadProperty`, `WriteProprty` |
| `Encoders` | format/encoding/{position,euler,event,enum,float}/*.go, every storage technique |
| `Time` | format/io/time.go |
| `Recording` | format/recording.go, format/collection/*, format/io/{binary,binary_reference}.go as data |
| `Writer`, `Reader` | format/io/{writer,reader,load}.go |
| `Query` | format/{slice,validate,util}.go |
| `RapV1` | internal/io/rapv1/{recording,util}.go |
| `Proto` | `proto.Unmarshal` for the messages of internal/io/rapv1/recording.pb.go (tables from the struct tags) |
| `ParseFloat` | `strconv.ParseFloat` (internal/io/rapv1/util.go:71, cmd/rap-cli/csv.go) and `strings.TrimSpace` (cmd/rap-cli/csv.go) |
| `JsonDecode` | `json.Unmarshal` into `interface{}`, as called through gabs by format/parsing/json.go:442 |
| `JsonEncode` | `json.Marshal` of what `json.Unmarshal` made, through `Container.String` of gabs; format/parsing/json.go:28-43 with the text in between |
| `Json` | format/parsing/json.go, format/metadata/utils.go (`getProperties`) |
| `Marshal` | the `MarshalJSON` methods of format/metadata/property.go |
| `Unmarshal` | the typed `UnmarshalJSON` methods and `UnmarshalNew..Property` functions of format/metadata/property.go |
| `UnmarshalProperty` | the `UnmarshalProperty` methods of format/metadata/property.go, `fmt.Sprintf` with `%v` |
| `Bson` | the `MarshalBSON` and `MarshalBSONValue` methods of format/metadata/property.go, and of the mongo driver's `bson.Marshal` and `bson.MarshalValue` what they call |
| `Csv` | cmd/rap-cli/csv.go |
| `Summary`, `ToJson` | cmd/rap-cli/{summarize,json}.go |
| `Cli`, `Commands` | the actions of cmd/rap-cli/main.go |
| `Benchmark` | the action of cmd/rap-benchmark/main.go |

## What is not modelled

* cmd/example, `main` and flag parsing of cmd/rap-cli and cmd/rap-benchmark.
* internal/io/rapv1/recording.pb.go (generated) beyond the message types and their tags. `proto.Unmarshal` is a parameter of all theorems
  but those of C73, which are about the model of it in `Model/Proto.lean`.
* The accessors `Name` and `Signature` of collections and the value accessors of captures are field accesses of the model's data.
* Wall-clock time, concurrency (the package has none), memory exhaustion below the `makeslice` limit (2^48 bytes),
  fused multiply-add (which Go permits on some non-amd64 targets), the bit pattern of NaNs produced by arithmetic.

## Trusted base

* Lean's kernel, and the axioms `propext`, `Classical.choice`, `Quot.sound` (no others). The axioms of every theorem are listed
  at the end of this file.
* The reading of the Go source that the definitions in `Model/` record.
* External code, modelled by its documented behaviour: `io.ReadFull`, `bytes.Reader/Buffer`, `bufio.Reader`
  (a source delivering pieces), `encoding/binary` (little endian fixed size, uvarint), `math.Floor`, encoding/hex,
  `github.com/EliCDavis/vector` (component-wise operations), `gabs` (one-key paths), the mongo driver's BSON writer (v1.11.6; its source is not in the sandbox, `Model/Bson.lean` follows its documented behaviour), `fmt` with `%.2f` and `%f` (the nearest decimal, ties to even; `Model/Fixed.lean`), `fmt.Fprintf` (one `Write` per call,
  result ignored by the callers).
* External code that is a parameter, with laws as hypotheses of the theorems that need them:
  * `Flate` (compress/flate): decompressing a compressed stream gives it back (`Flate.Lawful`). Used by C17–C20, C22, C25, C26,
    C29, C35, C46–C48, C51–C53, C60–C63.
  * `Ext` (internal/io/rapv1): inflating, `proto.Unmarshal`, `strconv.ParseFloat`: no law assumed. C73 takes for `proto.Unmarshal` a model
    of google.golang.org/protobuf v1.30.0, and C74 for `strconv.ParseFloat` one of strconv/atof.go, made from knowledge of these libraries,
    whose sources are not in the sandbox.
  * `JsonExt` (`JsonExt.Lawful`): `time.Parse` accepts printable text only; `strconv.Atoi` on the text of a number is exact below
    2^53. Integers are converted to int64 as amd64 does. Used by C41–C43, C50, C52, C55, C56, C58.
  * `MarshalExt` (`MarshalExt.Lawful`): encoding/json escapes strings without loss if they are UTF-8, prints integers and doubles so
    that they are read back, float32s so that the float32 is read back, fails on NaN and infinities; `%f` has six decimals; RFC 3339
    times are read back with their microseconds (time zone offsets are whole minutes). Used by C55, C56, C58.
    C70 proves the laws of `JsonExt` and `MarshalExt` for models of the documented behaviour of encoding/json, strconv, fmt and time
    (`Model/GoJson.lean`, `Model/GoTime.lean`; `time.Parse` as of Go 1.20); trusted is then only that the library does as documented.
  * `FmtExt`: `%f`, no law assumed. Used by C64.
  * `CsvExt` (`CsvExt.Lawful`): iterating a map visits each entry once. encoding/csv, number parsing and trimming are parameters
    without laws. Used by C44, C51. C74 takes models of number parsing and trimming for them (`Model/ParseFloat.lean`).
  * Foreign encoders (C17, C22, C26, C29) are quantified over, with their own round-trip law (`Understands`, `SigDetermines`), and for truncated
    files with `EmptyBlockOk`.
  * Foreign collection types are opaque captures with times; slicing one is assumed to filter by time.
* Each `Lawful` structure is shown to be satisfiable by a concrete instance (`storeFlate`, `sampleMarshal`, …) in the examples beside
  the theorems.

## Assumptions on inputs in the theorems

* Sizes: written files are considered below 2^40 bytes per item (`sizeLimit`), and no slice longer than 2^48 bytes exists.
* Quantisation bounds (C11, C13, C15, C16, C38, C49) are for finite values with range limits stated in each theorem.
* Strings in JSON are valid UTF-8, as encoding/json delivers them.
* Reading theorems about arbitrary bytes (C36, C37) are for finite sources.

## Plan per property

| id | modelled | proof |
|----|----------|-------|
| C01 | `ReadUvarint`, `PutUvarint` | induction on 7-bit groups |
| C02 | string/bytes/array codecs | induction on lists over C01 |
| C03 | `ErrReader` | invariant over arbitrary reader programs |
| C04 | `Property` types, `WriteProprty`, `ReadProperty` | mutual induction on values |
| C05 | `readPropData` | case analysis |
| C06 | `NewIntProperty` | `BitVec` arithmetic |
| C07 | enum `Encode`/`Decode` | dictionary invariant (first-seen order, no duplicates), induction over streams |
| C08 | event `Encode`/`Decode` | two dictionary invariants, C04 |
| C09 | Raw64 codecs | induction on captures, little-endian round trip |
| C10 | Raw32 codecs, float32 conversion | rounding lemmas |
| C11 | `UnsignedFloatBSTToBytes`/`BytesToUnisngedFloatBST` | invariant on the bisection with IEEE error terms |
| C12 | `octCellsToBytes*`/`bytesToOctCells*` | bit extraction |
| C13 | oct encode/decode | bisection invariant per axis + feedback induction |
| C14 | `encodeTime`/`decodeTime` raw | induction |
| C15 | BST16 times | feedback induction with IEEE error terms |
| C16 | same | false (evenly spaced times): drift proved; partial for irregular times |
| C17 | `Writer.Write`, `Reader.Read` | tree induction; stream-numbering invariant |
| C18 | counters | same induction as C17 |
| C19 | compress flag, flate parameter | corollary of C17 |
| C20 | map orders | C17 is stated for all orders |
| C21 | nil and encoder checks | induction on trees |
| C22 | reader on prefixes | sticky-error theorem for programs + no-panic Hoare logic |
| C23 | `errWriter` over arbitrary sinks | prefix invariant |
| C24 | `io.Copy` size check | false (binaries): counterexample, and a `_partial` for everything else |
| C25 | `Chunked` source | induction on programs; false for version 1 |
| C26 | reader leftovers | corollary of C17 |
| C27 | `readEncoders` | induction on lists |
| C28 | version dispatch | case analysis |
| C29 | technique byte | C17 with independent reader configuration |
| C30–C32 | `Slice` | tree induction |
| C33 | `Validate` | tree induction |
| C34 | `RecordingStart/End/Duration` | tree induction over IEEE order |
| C35 | reader ignoring decode errors | false: counterexample; true for written files (C17) |
| C36 | reader panics | false: four counterexamples; which panics are possible |
| C37 | fuel | sufficiency of fuel = number of bytes + 1 |
| C38 | euler Raw16 | C11 + wrap lemma; false for tiny negative angles |
| C39 | all decoders | case analysis, induction on times |
| C40 | `summarize` | tree induction, text of the summary |
| C41 | `parseEnumCollection` | false: counterexample + what does hold |
| C42 | `parseMetadata` | false: counterexample + what does hold |
| C43 | `getProperties`; `Spec/Json.lean`, `Spec/JsonExact.lean` | case analysis on decoded JSON; converse by recursion on the value |
| C44 | CSV grouping | induction on rows |
| C45 | `protobufToStd` | structural |
| C46 | v1 then writer | C45 + C17 |
| C47 | `evaluateCollections` | induction |
| C48 | `accumulateMetdataKeys` | dictionary invariant |
| C49 | float encoder with 16 bits | C11 applied to the range of the values |
| C50 | `FromJSON` | mutual induction on documents |
| C51 | `from-csv` | C44 + C17 |
| C52 | `from-json` | C50 + C17; false for null and nested arrays |
| C53 | the commands | error propagation through every step, C23 |
| C54 | v1 `ReadRecording` | case analysis over the reads |
| C55 | `MarshalJSON`, `UnmarshalJSON` of metadata | grammar of JSON, unique reading of written texts |
| C56 | `toJson` | grammar of JSON; what a scanner finds in the output |
| C57 | v1 start, end, duration, count | induction on lists over IEEE order |
| C58 | typed `UnmarshalJSON` | C55's grammar, case analysis |
| C59 | the readers of single values | `TS` (a clean run reads every byte), induction over properties |
| C60 | `Read` then `Write`, `upgrade` | `Gives` (what a program can return on a lawful source), C17, C21, C35 |
| C61 | cmd/rap-benchmark | C60, decimal numbers of C40 |
| C62 | writer, reader, all encoders, metadata | grammar of the byte format in `Spec/Layout.lean`; induction over derivations |
| C63 | `Read` on an arbitrary `io.Reader`, `io.ReadFull` | simulation: programs that stop at the first error see the same bytes |
| C64 | Model/Describe.lean, Spec/Describe.lean | Props/Describe.lean; sorting and uniqueness of decimals in Proof/Describe.lean. Partial: the number of items of binary and boolean arrays is wrong (`C64_raw_arrays_counted_wrong`) |
| C65 | Write and Read as for C17, the techniques as for C21 to C27 | `angle16_angle16` (Proof/Stable.lean) shows by exact arithmetic that the decoded angle k*360/65536 goes back to step k; the rest is `near32_near32` and C17 twice. Counterexamples for the other techniques are evaluated |
| C66 | Reader, metadata, time and all decoders as for C36; sizes in `Spec/Size.lean` | budget predicates `Prog.Spends` (bytes consumed, any failures) and `Prog.SpendsAll` (no failed read) in Proof/Size.lean, by induction over each reader; `Checks` shows that a successful build ends with the question to the ErrReader |
| C67 | Accessors of the five collection packages in `Model/Accessors.lean`; specification `Holds` (Spec/Accessors.lean) | case analysis over the kinds; order of times by `chrono_sorted`, difference by the nearest-double theorem |
| C68 | Writer and encoders as for C17; sizes in `Spec/Cost.lean` | `encode_size`, `encTime_size` for single encoders; for files a relation between the two runs (`MapRel`, Proof/Cost.lean) through evaluateCollections, encodeAll and recurseWrite |
| C69 | `Model/Fixed.lean` (`%.pf` as strconv rounds it; String of the captures); texts specified in `Spec/Fixed.lean`, `Spec/CaptureText.lean` | exact rational arithmetic: `rne_rat` for the rounding, uniqueness of digits for the texts |
| C70 | `Model/GoJson.lean` (shortest decimals, escapes, Atoi), `Model/GoTime.lean` (calendar, RFC3339Nano); `Spec/JsonNumber.lean`, `Spec/Rfc3339.lean` | a shortest decimal is nearest to one float only; a float32 and the double nearest to its shortest decimal identify each other because decimals of at most 9 digits are far apart; dates by induction over days |
| C71 | `Model/Float.lean`; `Spec/Ieee.lean` | case analysis on NaN, infinite and finite operands; finite results through the correct rounding of `Proof/FloatOps.lean` |
| C72 | `Model/Encoders.lean`, `Model/Time.lean`; `Spec/Short.lean`, `Spec/Layout.lean` | positions and rotations: the decoders run on any bytes, by induction on the times; the others: every read after the cut keeps or returns an error (`Proof/Trunc.lean`) |
| C73 | `Model/Proto.lean` (proto.Unmarshal, from its published behaviour), `Model/RapV1.lean`; `Spec/Proto.lean` | the decoder against the grammar in both directions; the effect of a list of fields splits into one fold for each field of the message |
| C74 | `Model/ParseFloat.lean` (strconv.ParseFloat, strings.TrimSpace), `Model/Csv.lean`, `Model/RapV1.lean`; `Spec/ParseFloat.lean` | the loops against the grammar of literals in both directions; rounding through `roundMag`; exponents that are cut off by bounds on both sides |
| C75 | `Model/JsonDecode.lean` (json.Unmarshal into `interface{}`), `Model/Json.lean`; `Spec/JsonText.lean`, `Spec/JsonDecode.lean` | the scanner against the grammar in both directions; scanning bytes and scanning the coerced text agree; number texts through C74; C50 |
| C76 | `Model/JsonEncode.lean` (json.Marshal of what json.Unmarshal made), `Model/JsonDecode.lean`; `Spec/JsonEncode.lean`, `Spec/File.lean` (the same map) | read values are clean (finite numbers, UTF-8 texts, no names twice); printing them gives texts of the grammar; C75 backwards; C43_exact is insensitive to order |
| C77 | `Model/JsonOwn.lean` (encoding/json as the UnmarshalJSON methods call it), `Model/Marshal.lean`, `Model/Unmarshal.lean`, `Model/JsonDecode.lean`; `Spec/JsonOwn.lean` (depth of metadata) | the written numbers have at most 2000 characters, so C74 and C75 apply to them; what is written is UTF-8, as deep as the metadata and without repeated names; C55 and C58 |
| C78 | `Model/Writer.lean` (NewRecoludeWriter), `Model/Cli.lean` (Load); `Spec/Default.lean` (what may change) | C17 with the techniques of the default writer, and the error bounds behind C10, C13, C15 |
| C79 | `Model/UnmarshalProperty.lean` (the methods, and fmt with `%v`); `Model/JsonOwn.lean`, `Model/JsonDecode.lean` | a text in quotes is a JSON string or no JSON; the text of a map starts with m; C77 for the texts that are accepted |
| C80 | `Model/Bson.lean` | induction over the property, with the grammar of BSON as a relation (`Spec/Bson.lean`); one reading by induction over the grammar |
| C81 | `Model/Cli.lean` (`cliWriter`), `Model/Writer.lean`, `Model/Reader.lean`, `Model/Encoders.lean` | C17 for the structure, the error bounds of C13, C16 and C38 for the numbers |

## Axioms per theorem

propext:

* `C03_failed_read_repeats`, `C03_failed_stays_failed`, `C03_failure_is_recorded`
* `C67_length`

propext, Quot.sound:

* `C01_uvarint_length_bounds`
* `C03_count_is_bytes_taken`
* `C05_codes_distinguish_kinds`, `C05_same_kind_same_code`, `C05_supported_codes_used`, `C05_unknown_code_is_error`
* `C12_bit_layout`, `C12_bytes_from_one_cell_list`, `C12_cells_roundtrip`
* `C21_rejected_before_writing`
* `C23_count`, `C23_failing_output`, `C23_prefix`, `C23_success_whole`
* `C24_panics`, `C24_returns_partial`
* `C25_version1_depends_on_delivery`
* `C28_other_versions_refused`
* `C32_binaries`
* `C35_decode_error_leaves_nil`, `C35_nil_means_dropped_error_partial`, `C35_only_collections_partial`
* `C36_encoder_index_panics`, `C36_enum_member_panics`, `C36_key_index_panics`, `C36_length_panics`
* `C39_float_unknown_technique_drops_captures`
* `C40_total`
* `C41_first_member`, `C41_one_member_partial`, `C41_wrong_member`
* `C42_dropped`, `C42_not_object`
* `C43_backslash`, `C43_bad_hex`, `C43_control`, `C43_empty_array`, `C43_null`, `C43_text_vector`
* `C52_nested_arrays`, `C52_null_panics`
* `C53_from_csv`, `C53_from_json`, `C53_upgrade`
* `C54_loaded`
* `C56_children_silent`, `C56_nil_collection`, `C56_output_ignored`, `C56_unreadable`
* `C57_count`
* `C58_array_panics`, `C58_byte`, `C58_byte_panics`, `C58_null`, `C58_other_kind`
* `C60_upgrade_unreadable`, `C60_wellformed`
* `C61_nil_collection`, `C61_unreadable`
* `C63_any_reader`, `C63_empty_read_is_misread`
* `C64_panics_on_nil`, `C64_text_is_ambiguous`
* `C65_positions_move`, `C65_single_rotation_moves`, `C65_times_move`
* `C66_keys_are_shared`
* `C68_times`
* `C69_1024kb`, `C69_text_is_ambiguous`
* `C74_trim`
* `C75_members`
* `C76_order`
* `C78_floats_refused`
* `C79_bytes`, `C79_empty`, `C79_never`
* `C80_refused`, `C80_types_lost`

propext, Classical.choice, Quot.sound:

* `C01_uvarint_length`, `C01_uvarint_roundtrip`
* `C02_bytes_roundtrip`, `C02_stringArray_roundtrip`, `C02_string_roundtrip`, `C02_uvarintArray_roundtrip`
* `C04_metadata_roundtrip`
* `C06_int_keeps_32_bits`
* `C07_enum_roundtrip`
* `C08_event_roundtrip`
* `C09_euler_raw64_exact`, `C09_float_raw64_exact`, `C09_position_raw64_exact`
* `C10_euler_raw32`, `C10_float_raw32`, `C10_position_raw32`, `C10_relative_error`
* `C11_decoded_in_range`, `C11_quantiser_error`
* `C13_octree_error`
* `C14_raw32_times_nearest`, `C14_raw32_times_single`, `C14_raw64_times_exact`
* `C15_compact_times`
* `C16_evenly_spaced_times_drift`, `C16_irregular_times_partial`
* `C17_lossless_identity`, `C17_roundtrip`, `C17_roundtrip_any_encoders`
* `C18_counts_agree`
* `C19_compression_transparent`
* `C20_map_order_irrelevant`
* `C22_truncated`, `C22_truncated_any_encoders`
* `C25_delivery_is_irrelevant_partial`, `C25_written_file_in_pieces`
* `C26_reads_exactly_one_recording`, `C26_recordings_in_a_row`
* `C27_unknown_or_newer_encoder_refused`
* `C29_technique_is_in_the_file`
* `C30_slice_between`, `C30_slice_keeps_interval`
* `C31_consecutive_slices_partition`, `C31_intersection_is_interval`, `C31_slicing_again`, `C31_slicing_twice`
* `C33_validate`
* `C34_duration`, `C34_duration_empty`, `C34_no_captures`, `C34_start_and_end`
* `C35_written_files_partial`
* `C36_lengths_panic`, `C36_only_range_panics_partial`
* `C37_depth_bounded`, `C37_terminates`
* `C38_angles_partial`, `C38_tiny_negative_angle`
* `C39_one_capture_per_time_partial`
* `C40_counts`, `C40_first_lines`, `C40_printed`
* `C42_kept_partial`
* `C43_exact`, `C43_kinds_partial`, `C43_large_integer`, `C43_mixed_numbers`, `C43_texts`, `C43_texts_unique`
* `C44_accepted`, `C44_imported`, `C44_missing_time`
* `C45_complete`
* `C46_upgrade`, `C46_writable`
* `C47_first_accepting_encoder`
* `C48_each_key_once`
* `C49_compact_floats`
* `C50_accepted`, `C50_parsed`
* `C51_from_csv`
* `C52_from_json_partial`
* `C53_csv_success_loads`
* `C54_accepted`, `C54_cut`
* `C55_control`, `C55_empty_array`, `C55_integral_float`, `C55_json`, `C55_not_finite`, `C55_one_byte`, `C55_one_value`, `C55_roundtrip_partial`, `C55_text_vector`, `C55_times`, `C55_written`
* `C56_back_partial`, `C56_child_lost`, `C56_command`, `C56_document`, `C56_injected`, `C56_json_iff`, `C56_not_back`, `C56_unescaped`
* `C57_agrees`, `C57_duration`, `C57_no_times`, `C57_out_of_order`, `C57_start_and_end`
* `C58_back_partial`, `C58_refused`, `C58_vector`
* `C59_bytes`, `C59_metadata`, `C59_prefix_free`, `C59_string`, `C59_strings`, `C59_uvarint`, `C59_uvarints`
* `C60_refused`, `C60_saved`, `C60_stable`, `C60_upgrade`, `C60_upgrade_changes`, `C60_upgrade_success`
* `C61_report`, `C61_uncompressed_size`
* `C62_read`, `C62_unambiguous`, `C62_written`
* `C63_written_file`
* `C64_map_order`, `C64_raw_arrays_counted_wrong`, `C64_text_partial`
* `C65_floats_move`, `C65_saved_twice`, `C65_values`
* `C66_any_reader`, `C66_count`, `C66_held`, `C66_no_larger_than_file`
* `C67_capture_at`, `C67_captures`, `C67_duration`, `C67_empty`, `C67_out_of_order`, `C67_start_and_end`
* `C68_blocks`, `C68_files`, `C68_no_larger`, `C68_worth_it`
* `C69_captures`, `C69_double`, `C69_metadata`, `C69_one_text`, `C69_same_text`, `C69_same_time`, `C69_single`, `C69_summary`
* `C70_calendar`, `C70_doubles`, `C70_lawful`, `C70_roundtrip`, `C70_singles`, `C70_strings`, `C70_times_read`, `C70_times_written`
* `C71_add`, `C71_compare`, `C71_convert`, `C71_div`, `C71_floor`, `C71_mul`, `C71_sub`, `C71_sub32`
* `C72_angles`, `C72_euler_raw32`, `C72_oct`, `C72_position_raw32`, `C72_raw64`, `C72_reported_partial`, `C72_times`, `C72_unreported`
* `C73_accepted`, `C73_complete`, `C73_loaded`, `C73_unique`, `C73_value`
* `C74_cell`, `C74_double`, `C74_long_refuted`, `C74_metadata`, `C74_range`, `C74_single`, `C74_table`
* `C75_accepted`, `C75_long_refuted`, `C75_one_text`, `C75_recording`, `C75_refused`, `C75_texts`, `C75_utf8`
* `C76_detour`, `C76_metadata`, `C76_no_metadata`, `C76_reprint`
* `C77_accepted`, `C77_metadata`, `C77_own_type`
* `C78_saved_and_loaded`
* `C79_integers`, `C79_maps`, `C79_own_text`, `C79_slices`
* `C80_document`, `C80_same`
* `C81_from_json`, `C81_saved_and_loaded`, `C81_upgraded`
