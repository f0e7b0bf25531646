{"claims": [
 {"property": "C01", "status": "proved", "theorems": ["Rap.C01_uvarint_roundtrip", "Rap.C01_uvarint_length", "Rap.C01_uvarint_length_bounds"], "note": ""},
 {"property": "C02", "status": "proved", "theorems": ["Rap.C02_string_roundtrip", "Rap.C02_bytes_roundtrip", "Rap.C02_stringArray_roundtrip", "Rap.C02_uvarintArray_roundtrip"], "note": ""},
 {"property": "C03", "status": "proved", "theorems": ["Rap.C03_failed_read_repeats", "Rap.C03_failed_stays_failed", "Rap.C03_failure_is_recorded", "Rap.C03_count_is_bytes_taken"], "note": ""},
 {"property": "C04", "status": "proved", "theorems": ["Rap.C04_metadata_roundtrip"], "note": ""},
 {"property": "C05", "status": "proved", "theorems": ["Rap.C05_unknown_code_is_error", "Rap.C05_supported_codes_used", "Rap.C05_codes_distinguish_kinds", "Rap.C05_same_kind_same_code"], "note": ""},
 {"property": "C06", "status": "proved", "theorems": ["Rap.C06_int_keeps_32_bits"], "note": ""},
 {"property": "C07", "status": "proved", "theorems": ["Rap.C07_enum_roundtrip"], "note": ""},
 {"property": "C08", "status": "proved", "theorems": ["Rap.C08_event_roundtrip"], "note": ""},
 {"property": "C09", "status": "proved", "theorems": ["Rap.C09_position_raw64_exact", "Rap.C09_euler_raw64_exact", "Rap.C09_float_raw64_exact"], "note": ""},
 {"property": "C10", "status": "proved", "theorems": ["Rap.C10_position_raw32", "Rap.C10_euler_raw32", "Rap.C10_float_raw32", "Rap.C10_relative_error"], "note": ""},
 {"property": "C11", "status": "proved", "theorems": ["Rap.C11_quantiser_error", "Rap.C11_decoded_in_range"], "note": ""},
 {"property": "C12", "status": "proved", "theorems": ["Rap.C12_cells_roundtrip", "Rap.C12_bytes_from_one_cell_list", "Rap.C12_bit_layout"], "note": ""},
 {"property": "C13", "status": "proved", "theorems": ["Rap.C13_octree_error"], "note": ""},
 {"property": "C14", "status": "proved", "theorems": ["Rap.C14_raw64_times_exact", "Rap.C14_raw32_times_nearest", "Rap.C14_raw32_times_single"], "note": ""},
 {"property": "C15", "status": "proved", "theorems": ["Rap.C15_compact_times"], "note": ""},
 {"property": "C16", "status": "partial", "theorems": ["Rap.C16_evenly_spaced_times_drift", "Rap.C16_irregular_times_partial"], "note": "False: C16_evenly_spaced_times_drift proves that captures at 0, 1, ..., n are read back with an error of i/2^17 for the i-th. C16_irregular_times_partial: no accumulation beyond rounding if every gap is at least G/2^15 and of any two consecutive gaps one is at most G - G/2^15."},
 {"property": "C17", "status": "proved", "theorems": ["Rap.C17_roundtrip_any_encoders", "Rap.C17_roundtrip", "Rap.C17_lossless_identity"], "note": ""},
 {"property": "C18", "status": "proved", "theorems": ["Rap.C18_counts_agree"], "note": ""},
 {"property": "C19", "status": "proved", "theorems": ["Rap.C19_compression_transparent"], "note": ""},
 {"property": "C20", "status": "proved", "theorems": ["Rap.C20_map_order_irrelevant"], "note": ""},
 {"property": "C21", "status": "proved", "theorems": ["Rap.C21_rejected_before_writing"], "note": ""},
 {"property": "C22", "status": "proved", "theorems": ["Rap.C22_truncated_any_encoders", "Rap.C22_truncated"], "note": ""},
 {"property": "C23", "status": "proved", "theorems": ["Rap.C23_failing_output", "Rap.C23_prefix", "Rap.C23_success_whole", "Rap.C23_count"], "note": ""},
 {"property": "C24", "status": "partial", "theorems": ["Rap.C24_panics", "Rap.C24_returns_partial"], "note": "The claim is false as stated: C24_panics exhibits a well-formed recording with a binary and a full output on which Write panics. C24_returns_partial: whenever the recording can be written at all, Write on any output whatever returns, or ends with exactly that panic, and the latter only if the tree contains a non-empty binary."},
 {"property": "C25", "status": "partial", "theorems": ["Rap.C25_delivery_is_irrelevant_partial", "Rap.C25_written_file_in_pieces", "Rap.C25_version1_depends_on_delivery"], "note": "Proved for every file that is not of version 1 (and for every written file). False for version 1 files: the version-1 reader buffers differently depending on how the input is delivered; C25_version1_depends_on_delivery gives the counterexample."},
 {"property": "C26", "status": "proved", "theorems": ["Rap.C26_reads_exactly_one_recording", "Rap.C26_recordings_in_a_row"], "note": ""},
 {"property": "C27", "status": "proved", "theorems": ["Rap.C27_unknown_or_newer_encoder_refused"], "note": ""},
 {"property": "C28", "status": "proved", "theorems": ["Rap.C28_other_versions_refused"], "note": ""},
 {"property": "C29", "status": "proved", "theorems": ["Rap.C29_technique_is_in_the_file"], "note": ""},
 {"property": "C30", "status": "proved", "theorems": ["Rap.C30_slice_keeps_interval", "Rap.C30_slice_between"], "note": ""},
 {"property": "C31", "status": "proved", "theorems": ["Rap.C31_slicing_twice", "Rap.C31_intersection_is_interval", "Rap.C31_slicing_again", "Rap.C31_consecutive_slices_partition"], "note": ""},
 {"property": "C32", "status": "proved", "theorems": ["Rap.C32_binaries"], "note": ""},
 {"property": "C33", "status": "proved", "theorems": ["Rap.C33_validate"], "note": ""},
 {"property": "C34", "status": "proved", "theorems": ["Rap.C34_duration", "Rap.C34_duration_empty", "Rap.C34_start_and_end", "Rap.C34_no_captures"], "note": ""},
 {"property": "C35", "status": "partial", "theorems": ["Rap.C35_decode_error_leaves_nil", "Rap.C35_only_collections_partial", "Rap.C35_nil_means_dropped_error_partial", "Rap.C35_written_files_partial"], "note": "False: C35_decode_error_leaves_nil gives a file whose stream decoder fails and which is still read without error, leaving a nil collection. Proved instead: only collections can be nil (no nil recordings, binaries or references), a nil collection always stems from a dropped decoder error, and files that were written by Write never produce one."},
 {"property": "C36", "status": "partial", "theorems": ["Rap.C36_key_index_panics", "Rap.C36_encoder_index_panics", "Rap.C36_length_panics", "Rap.C36_enum_member_panics", "Rap.C36_lengths_panic", "Rap.C36_only_range_panics_partial"], "note": "False: four files on which reading panics (key index, encoder index, length, enum member). Proved instead: on every finite input the only panics possible are index-out-of-range and makeslice."},
 {"property": "C37", "status": "proved", "theorems": ["Rap.C37_terminates", "Rap.C37_depth_bounded"], "note": ""},
 {"property": "C38", "status": "partial", "theorems": ["Rap.C38_angles_partial", "Rap.C38_tiny_negative_angle"], "note": "False for negative angles between -2^-1066 and 0, which are read back near 0 instead of near 360 (C38_tiny_negative_angle). Proved for all other finite angles up to 2^30 degrees; for those tiny ones the bound holds modulo a whole turn."},
 {"property": "C39", "status": "partial", "theorems": ["Rap.C39_one_capture_per_time_partial", "Rap.C39_float_unknown_technique_drops_captures"], "note": "False for float data whose technique byte is above 2: C39_float_unknown_technique_drops_captures. All other data: C39_one_capture_per_time_partial."},
 {"property": "C40", "status": "proved", "theorems": ["Rap.C40_counts", "Rap.C40_total", "Rap.C40_printed", "Rap.C40_first_lines"], "note": ""},
 {"property": "C41", "status": "partial", "theorems": ["Rap.C41_first_member", "Rap.C41_one_member_partial", "Rap.C41_wrong_member"], "note": "False when captures name two different members: every capture designates the first member (C41_first_member, C41_wrong_member). Proved for collections naming one member only: C41_one_member_partial."},
 {"property": "C42", "status": "partial", "theorems": ["Rap.C42_kept_partial", "Rap.C42_not_object", "Rap.C42_dropped"], "note": "False: metadata that cannot be represented is silently replaced by empty metadata (C42_not_object, C42_dropped). Proved: the metadata is what C43_exact gives for the object, or empty (C50_parsed), and it is the object's meaning whenever the documented rules give one: C42_kept_partial."},
 {"property": "C43", "status": "partial", "theorems": ["Rap.C43_exact", "Rap.C43_kinds_partial", "Rap.C43_large_integer", "Rap.C43_mixed_numbers", "Rap.C43_backslash", "Rap.C43_control", "Rap.C43_empty_array", "Rap.C43_text_vector", "Rap.C43_null", "Rap.C43_texts", "Rap.C43_texts_unique", "Rap.C43_bad_hex"], "note": "False for some values: C43_large_integer, C43_mixed_numbers, C43_backslash, C43_control, C43_empty_array, C43_text_vector, C43_null. Proved: C43_exact says for every JSON value exactly when a property is returned and which (arrays of mixed kinds, null, escapes and all); C43_kinds_partial gives the documented rules. Parsing of times and single-precision rounding are parameters with stated assumptions (JsonExt.Lawful)."},
 {"property": "C44", "status": "proved", "theorems": ["Rap.C44_imported", "Rap.C44_accepted", "Rap.C44_missing_time"], "note": "Every table that is imported: C44_imported; every table with the six columns and numbers where needed is imported: C44_accepted. Number parsing, trimming and map order are parameters. C44_missing_time: a table without a time column makes the import panic instead of reporting an error."},
 {"property": "C45", "status": "proved", "theorems": ["Rap.C45_complete"], "note": ""},
 {"property": "C46", "status": "proved", "theorems": ["Rap.C46_writable", "Rap.C46_upgrade"], "note": ""},
 {"property": "C47", "status": "proved", "theorems": ["Rap.C47_first_accepting_encoder"], "note": ""},
 {"property": "C48", "status": "proved", "theorems": ["Rap.C48_each_key_once"], "note": ""},
 {"property": "C49", "status": "proved", "theorems": ["Rap.C49_compact_floats"], "note": ""},
 {"property": "C50", "status": "proved", "theorems": ["Rap.C50_parsed", "Rap.C50_accepted"], "note": ""},
 {"property": "C51", "status": "proved", "theorems": ["Rap.C51_from_csv"], "note": ""},
 {"property": "C52", "status": "partial", "theorems": ["Rap.C52_from_json_partial", "Rap.C52_null_panics", "Rap.C52_nested_arrays"], "note": "False for metadata holding null (C52_null_panics: the command panics) and arrays of arrays (C52_nested_arrays: the file written cannot be loaded). Proved for all documents whose parsed metadata is of the kinds the public constructors build: C52_from_json_partial."},
 {"property": "C53", "status": "proved", "theorems": ["Rap.C53_from_csv", "Rap.C53_from_json", "Rap.C53_upgrade", "Rap.C53_csv_success_loads"], "note": ""},
 {"property": "C54", "status": "proved", "theorems": ["Rap.C54_accepted", "Rap.C54_cut", "Rap.C54_loaded"], "note": ""},
 {"property": "C55", "status": "partial", "theorems": ["Rap.C55_one_value", "Rap.C55_roundtrip_partial", "Rap.C55_written", "Rap.C55_json", "Rap.C55_not_finite", "Rap.C55_integral_float", "Rap.C55_one_byte", "Rap.C55_empty_array", "Rap.C55_times", "Rap.C55_text_vector", "Rap.C55_control"], "note": "The round trip is proved for metadata JSON can carry (Portable); proved counterexamples: integral float32s come back as int32, byte strings of length one as a byte, empty arrays and text-valued x/y blocks panic, times beyond 292 years wrap, control characters cannot be read back. External: encoding/json, strconv, time (MarshalExt.Lawful, JsonExt.Lawful)."},
 {"property": "C56", "status": "partial", "theorems": ["Rap.C56_document", "Rap.C56_json_iff", "Rap.C56_children_silent", "Rap.C56_child_lost", "Rap.C56_unescaped", "Rap.C56_injected", "Rap.C56_command", "Rap.C56_output_ignored", "Rap.C56_unreadable", "Rap.C56_nil_collection", "Rap.C56_back_partial", "Rap.C56_not_back"], "note": "Proved for recordings whose texts need no escaping, with metadata JSON can carry and finite times: C56_document, C56_command; for all recordings whose texts need no escaping, the output is JSON exactly if all metadata could be written and all times are finite: C56_json_iff. False otherwise: names with quotes (C56_unescaped, C56_injected), errors of child recordings (C56_children_silent, C56_child_lost) and of the output (C56_output_ignored) are not reported, nil collections panic, documents with collections cannot be read back (C56_not_back). External: encoding/json, strconv, fmt, time (MarshalExt.Lawful)."},
 {"property": "C57", "status": "proved", "theorems": ["Rap.C57_start_and_end", "Rap.C57_no_times", "Rap.C57_duration", "Rap.C57_count", "Rap.C57_agrees", "Rap.C57_out_of_order"], "note": ""},
 {"property": "C58", "status": "partial", "theorems": ["Rap.C58_back_partial", "Rap.C58_other_kind", "Rap.C58_null", "Rap.C58_byte_panics", "Rap.C58_byte", "Rap.C58_array_panics", "Rap.C58_refused", "Rap.C58_vector"], "note": "The round trip, other kinds, null, bytes and vectors are proved; proved counterexamples: byte and array readers panic on null and empty texts (exactly characterised for bytes), arrays of booleans held as ArrayProperty and one-byte binary arrays are refused by their own type. External: encoding/json, strconv, time (MarshalExt.Lawful, UnmarshalExt.Lawful, JsonExt.Lawful)."},
 {"property": "C59", "status": "proved", "theorems": ["Rap.C59_uvarint", "Rap.C59_string", "Rap.C59_bytes", "Rap.C59_strings", "Rap.C59_uvarints", "Rap.C59_metadata", "Rap.C59_prefix_free"], "note": ""},
 {"property": "C60", "status": "proved", "theorems": ["Rap.C60_wellformed", "Rap.C60_saved", "Rap.C60_stable", "Rap.C60_refused", "Rap.C60_upgrade", "Rap.C60_upgrade_unreadable", "Rap.C60_upgrade_success", "Rap.C60_upgrade_changes"], "note": ""},
 {"property": "C61", "status": "proved", "theorems": ["Rap.C61_report", "Rap.C61_unreadable", "Rap.C61_nil_collection", "Rap.C61_uncompressed_size"], "note": ""},
 {"property": "C62", "status": "proved", "theorems": ["Rap.C62_written", "Rap.C62_read", "Rap.C62_unambiguous"], "note": "The grammar (Spec/Layout.lean) is written without the model's byte functions. Sizes up to 2^40."},
 {"property": "C63", "status": "proved", "theorems": ["Rap.C63_any_reader", "Rap.C63_written_file", "Rap.C63_empty_read_is_misread"], "note": "Readers returning (0, nil) are excluded by the contract used (Honest); C63_empty_read_is_misread shows what happens to them. Version 1 files: see C25."},
 {"property": "C64", "status": "partial", "theorems": ["Rap.C64_panics_on_nil", "Rap.C64_text_partial", "Rap.C64_map_order", "Rap.C64_raw_arrays_counted_wrong", "Rap.C64_text_is_ambiguous"], "note": "Proved for all values without binary and boolean arrays; for those the property is false (ArrayPropertyRaw.String counts the length prefix): C64_raw_arrays_counted_wrong proves it for every such array. C64_text_is_ambiguous: the text does not determine the value."},
 {"property": "C65", "status": "proved", "theorems": ["Rap.C65_saved_twice", "Rap.C65_values", "Rap.C65_floats_move", "Rap.C65_times_move", "Rap.C65_positions_move", "Rap.C65_single_rotation_moves"], "note": "The statement covers 64-bit and 32-bit floats and angles of 16 bits; for the other techniques its negation is proved by witnesses (C65_floats_move, C65_times_move, C65_positions_move, C65_single_rotation_moves)."},
 {"property": "C66", "status": "proved", "theorems": ["Rap.C66_count", "Rap.C66_held", "Rap.C66_no_larger_than_file", "Rap.C66_any_reader", "Rap.C66_keys_are_shared"], "note": ""},
 {"property": "C67", "status": "proved", "theorems": ["Rap.C67_capture_at", "Rap.C67_length", "Rap.C67_captures", "Rap.C67_empty", "Rap.C67_start_and_end", "Rap.C67_duration", "Rap.C67_out_of_order"], "note": ""},
 {"property": "C68", "status": "proved", "theorems": ["Rap.C68_blocks", "Rap.C68_times", "Rap.C68_files", "Rap.C68_no_larger", "Rap.C68_worth_it"], "note": ""},
 {"property": "C69", "status": "proved", "theorems": ["Rap.C69_double", "Rap.C69_single", "Rap.C69_one_text", "Rap.C69_same_text", "Rap.C69_captures", "Rap.C69_same_time", "Rap.C69_text_is_ambiguous", "Rap.C69_summary", "Rap.C69_1024kb", "Rap.C69_metadata"], "note": ""},
 {"property": "C70", "status": "proved", "theorems": ["Rap.C70_doubles", "Rap.C70_singles", "Rap.C70_strings", "Rap.C70_times_written", "Rap.C70_times_read", "Rap.C70_calendar", "Rap.C70_lawful", "Rap.C70_roundtrip"], "note": "The models of encoding/json, strconv and time follow their documentation (they are not in /repo). The offset of the time zone is a whole number of minutes below 24 hours. Metadata JSON cannot carry: C55."},
 {"property": "C71", "status": "proved", "theorems": ["Rap.C71_add", "Rap.C71_sub", "Rap.C71_sub32", "Rap.C71_mul", "Rap.C71_div", "Rap.C71_floor", "Rap.C71_convert", "Rap.C71_compare"], "note": "Which NaN is returned is not specified. Fused multiply-add is not modelled (the specification permits it on some processors)."},
 {"property": "C72", "status": "partial", "theorems": ["Rap.C72_raw64", "Rap.C72_position_raw32", "Rap.C72_euler_raw32", "Rap.C72_angles", "Rap.C72_oct", "Rap.C72_reported_partial", "Rap.C72_unreported", "Rap.C72_times"], "note": "The claim as stated is false for positions and rotations (`C72_unreported`); proved for floats, events and enum values (`C72_reported_partial`), with exact descriptions of what the other decoders return."},
 {"property": "C73", "status": "proved", "theorems": ["Rap.C73_value", "Rap.C73_complete", "Rap.C73_unique", "Rap.C73_loaded", "Rap.C73_accepted"], "note": "proto.Unmarshal (google.golang.org/protobuf v1.30.0) is external code; it is modelled function by function (tags, varints, skipping, coders by kind), with the field tables from the struct tags in recording.pb.go. Decompression stays a parameter."},
 {"property": "C74", "status": "proved", "theorems": ["Rap.C74_single", "Rap.C74_double", "Rap.C74_range", "Rap.C74_long_refuted", "Rap.C74_trim", "Rap.C74_cell", "Rap.C74_table", "Rap.C74_metadata"], "note": "strconv.ParseFloat and strings.TrimSpace are external code, modelled function by function from strconv/atof.go; the conversion algorithms behind the parser (Eisel-Lemire, decimal shifting) are replaced by exact rounding, which is their documented result. C74_long_refuted shows that the bound is needed: the parser cuts exponents off, and a text of 1 is read as 0."},
 {"property": "C75", "status": "proved", "theorems": ["Rap.C75_texts", "Rap.C75_utf8", "Rap.C75_one_text", "Rap.C75_members", "Rap.C75_recording", "Rap.C75_accepted", "Rap.C75_refused", "Rap.C75_long_refuted"], "note": "encoding/json is external code, modelled from its documentation and source from memory: grammar, nesting limit of 10000, coercion of bytes that are not UTF-8, last member wins, numbers through strconv.ParseFloat. The theorems are about json.Unmarshal into interface{}, which gabs.ParseJSON calls. C75_long_refuted shows that the bound on numbers is needed."},
 {"property": "C76", "status": "proved", "theorems": ["Rap.C76_reprint", "Rap.C76_order", "Rap.C76_metadata", "Rap.C76_no_metadata", "Rap.C76_detour"], "note": "Container.String of gabs and json.Marshal are external code, modelled from their documentation and source from memory. Where metadata contains both a value that is refused and one that crashes, the code does one or the other depending on the order of a map (C76_detour)."},
 {"property": "C77", "status": "proved", "theorems": ["Rap.C77_metadata", "Rap.C77_own_type", "Rap.C77_accepted"], "note": "encoding/json and strconv are external code, modelled from their documentation and source from memory. Go's json.Marshal refuses metadata nested more than 10000 deep, the model writes it; the theorems do not speak of such metadata."},
 {"property": "C78", "status": "proved", "theorems": ["Rap.C78_saved_and_loaded", "Rap.C78_floats_refused"], "note": "Binaries must have the size they claim, metadata must be of the kinds a user can build. Opening the file is not modelled. Neither the default writer nor Load has an encoder for floats."},
 {"property": "C79", "status": "proved", "theorems": ["Rap.C79_never", "Rap.C79_maps", "Rap.C79_slices", "Rap.C79_empty", "Rap.C79_integers", "Rap.C79_bytes", "Rap.C79_own_text"], "note": "The receivers are values, so that the methods change nothing. Floats, structs and pointers as arguments are not modelled."},
 {"property": "C80", "status": "proved", "theorems": ["Rap.C80_document", "Rap.C80_refused", "Rap.C80_same", "Rap.C80_types_lost"], "note": "The mongo driver (v1.11.6) is modelled by its documented behaviour, its source is not available here. A map is written in the order of the model's list, any order being covered."},
 {"property": "C81", "status": "proved", "theorems": ["Rap.C81_saved_and_loaded", "Rap.C81_upgraded", "Rap.C81_from_json"], "note": "Angles beyond 2^30 degrees, times and positions beyond 2^126 are not covered by the bounds. compress/flate is a parameter."}
]}
