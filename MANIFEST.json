{
 "claims": [
  {
   "property": "C01",
   "status": "proved",
   "theorems": [
    "Props.C01_read_value_iff",
    "Props.C01_read_value",
    "Props.C01_unaligned_u64",
    "Props.C01_counterexample_u64",
    "Props.C01_counterexample_i1",
    "Props.C01_width_zero"
   ],
   "note": "C01_read_value gives the returned value in every case; C01_read_value_iff when it is the stored integer; the two exceptions are defects of the code (counterexamples are theorems)."
  },
  {
   "property": "C02",
   "status": "proved",
   "theorems": [
    "Props.C02_write_read",
    "Props.C02_counterexample_i1"
   ],
   "note": "All integers, not only in-range ones; the single exception is a defect (C02_counterexample_i1)."
  },
  {
   "property": "C03",
   "status": "proved",
   "theorems": [
    "Props.C03_write_effect",
    "Props.C03_counterexample_overwrite",
    "Props.C03_counterexample_order"
   ],
   "note": ""
  },
  {
   "property": "C04",
   "status": "proved",
   "theorems": [
    "Props.C04_write_read_wrap",
    "Props.C04_write_read_bit"
   ],
   "note": ""
  },
  {
   "property": "C05",
   "status": "proved",
   "theorems": [
    "Props.C05_in_buffer_total",
    "Props.C05_read_local",
    "Props.C05_too_wide"
   ],
   "note": ""
  },
  {
   "property": "C06",
   "status": "proved",
   "theorems": [
    "Props.C06_struct_roundtrip",
    "Props.C06_width_zero",
    "Props.C06_counterexample_u64"
   ],
   "note": "Exact: value shown by every field for every dictionary; the two exceptions are those of C01."
  },
  {
   "property": "C07",
   "status": "proved",
   "theorems": [
    "Props.C07_layout"
   ],
   "note": ""
  },
  {
   "property": "C08",
   "status": "proved",
   "theorems": [
    "Props.C08_vector_open",
    "Props.C08_vector_open_empty_type",
    "Props.C08_len"
   ],
   "note": ""
  },
  {
   "property": "C09",
   "status": "proved",
   "theorems": [
    "Props.C09_vector_index"
   ],
   "note": ""
  },
  {
   "property": "C10",
   "status": "proved",
   "theorems": [
    "Props.C10_vector_slice",
    "Props.C10_vector_slice_zero",
    "Props.C10_multivector_slice"
   ],
   "note": ""
  },
  {
   "property": "C11",
   "status": "proved",
   "theorems": [
    "Props.C11_vector_iter",
    "Props.C11_vector_column",
    "Props.C11_multivector_iter",
    "Props.C11_instance_iter"
   ],
   "note": ""
  },
  {
   "property": "C12",
   "status": "proved",
   "theorems": [
    "Props.C12_vector_roundtrip"
   ],
   "note": ""
  },
  {
   "property": "C13",
   "status": "proved",
   "theorems": [
    "Props.C13_instance_roundtrip"
   ],
   "note": ""
  },
  {
   "property": "C14",
   "status": "proved",
   "theorems": [
    "Props.C14_multivector_roundtrip"
   ],
   "note": ""
  },
  {
   "property": "C15",
   "status": "proved",
   "theorems": [
    "Props.C15_overflow_bytes",
    "Props.C15_truncated_index",
    "Props.C15_index_overflow",
    "Props.C15_counterexample_narrow_index"
   ],
   "note": "The naive statement (never silently corrupted) is false for widths that are not a multiple of 8: C15_truncated_index, C15_counterexample_narrow_index."
  },
  {
   "property": "C16",
   "status": "proved",
   "theorems": [
    "Props.C16_multivector_index"
   ],
   "note": ""
  },
  {
   "property": "C17",
   "status": "proved",
   "theorems": [
    "Props.C17_raw_roundtrip"
   ],
   "note": ""
  },
  {
   "property": "C18",
   "status": "proved",
   "theorems": [
    "Props.C18_sub_str",
    "Props.C18_sub_str_array",
    "Props.C18_sub_str_list"
   ],
   "note": "sub_str for arbitrary separators; sub_str_array and sub_str_list for one-byte separators (the documented use)."
  },
  {
   "property": "C19",
   "status": "proved",
   "theorems": [
    "Props.C19_to_numpy",
    "Props.C19_to_numpy_limit",
    "Props.C19_repr_fails"
   ],
   "note": ""
  },
  {
   "property": "C20",
   "status": "proved",
   "theorems": [
    "Props.C20_set_framed",
    "Props.C20_index_framed",
    "Props.C20_signature",
    "Props.C20_frame_opens"
   ],
   "note": ""
  },
  {
   "property": "C21",
   "status": "proved",
   "theorems": [
    "Props.C21_short_rejected",
    "Props.C21_long_accepted",
    "Props.C21_clipped_read",
    "Props.C21_example_truncated"
   ],
   "note": ""
  },
  {
   "property": "C22",
   "status": "proved",
   "theorems": [
    "Props.C22_opens_iff",
    "Props.C22_generated"
   ],
   "note": ""
  },
  {
   "property": "C23",
   "status": "proved",
   "theorems": [
    "Props.C23_mismatch_raises",
    "Props.C23_error_kind"
   ],
   "note": ""
  },
  {
   "property": "C24",
   "status": "proved",
   "theorems": [
    "Props.C24_missing_raises",
    "Props.C24_error_kind",
    "Props.C24_optional_absent"
   ],
   "note": ""
  },
  {
   "property": "C25",
   "status": "proved",
   "theorems": [
    "Props.C25_attributes_stable"
   ],
   "note": ""
  },
  {
   "property": "C26",
   "status": "proved",
   "theorems": [
    "Props.C26_none_iff",
    "Props.C26_container",
    "Props.C26_counterexample_signature"
   ],
   "note": ""
  },
  {
   "property": "C27",
   "status": "proved",
   "theorems": [
    "Props.C27_size"
   ],
   "note": ""
  },
  {
   "property": "C28",
   "status": "proved",
   "theorems": [
    "Props.C28_set_once",
    "Props.C28_unknown",
    "Props.C28_signature",
    "Props.C28_rejected_only_if_set"
   ],
   "note": ""
  },
  {
   "property": "C29",
   "status": "proved",
   "theorems": [
    "Props.C29_accepts_only_exact",
    "Props.C29_rejects_inexact"
   ],
   "note": ""
  },
  {
   "property": "C30",
   "status": "proved",
   "theorems": [
    "Props.C30_other_resources_untouched",
    "Props.C30_retry"
   ],
   "note": ""
  },
  {
   "property": "C31",
   "status": "proved",
   "theorems": [
    "Props.C31_order_irrelevant"
   ],
   "note": ""
  },
  {
   "property": "C32",
   "status": "proved",
   "theorems": [
    "Props.C32_build_then_open"
   ],
   "note": ""
  },
  {
   "property": "C33",
   "status": "proved",
   "theorems": [
    "Props.C33_crash_safe",
    "Props.C33_finish_adds_no_crash_point",
    "Props.C33_counterexample_finish",
    "Props.C33_counterexample_torn_write"
   ],
   "note": ""
  },
  {
   "property": "C34",
   "status": "proved",
   "theorems": [
    "Props.C34_finish_effect",
    "Props.C34_completed_resources_stay",
    "Props.C34_finish_idempotent",
    "Props.C34_nothing_to_flush"
   ],
   "note": ""
  },
  {
   "property": "C35",
   "status": "proved",
   "theorems": [
    "Props.C35_stored_or_dropped",
    "Props.C35_counterexample_raw",
    "Props.C35_counterexample_sub"
   ],
   "note": "The naive statement (stored or raises) is false; the two exceptions are exact and shown to happen."
  },
  {
   "property": "C36",
   "status": "proved",
   "theorems": [
    "Props.C36_tar_like_directory",
    "Props.C36_refines_fetch"
   ],
   "note": ""
  },
  {
   "property": "C37",
   "status": "proved",
   "theorems": [
    "Props.C37_ls_lists_directory"
   ],
   "note": ""
  },
  {
   "property": "C38",
   "status": "proved",
   "theorems": [
    "Props.C38_opens_chosen",
    "Props.C38_choice_unique",
    "Props.C38_raises_if_none_chosen",
    "Props.C38_missing_path",
    "Props.C38_file_path",
    "Props.C38_tar_raises"
   ],
   "note": ""
  },
  {
   "property": "C39",
   "status": "proved",
   "theorems": [
    "Props.C39_raises_iff",
    "Props.C39_detects_name"
   ],
   "note": ""
  },
  {
   "property": "C40",
   "status": "proved",
   "theorems": [
    "Props.C40_unsigned",
    "Props.C40_negative",
    "Props.C40_signed"
   ],
   "note": ""
  },
  {
   "property": "C41",
   "status": "proved",
   "theorems": [
    "Props.C41_constant_accepted_iff",
    "Props.C41_constant_rejected"
   ],
   "note": ""
  },
  {
   "property": "C42",
   "status": "proved",
   "theorems": [
    "Props.C42_total"
   ],
   "note": ""
  },
  {
   "property": "C43",
   "status": "proved",
   "theorems": [
    "Props.C43_assignment_exists_unique",
    "Props.C43_implicit_values",
    "Props.C43_duplicates_rejected"
   ],
   "note": ""
  },
  {
   "property": "C44",
   "status": "proved",
   "theorems": [
    "Props.C44_accepted_iff"
   ],
   "note": ""
  },
  {
   "property": "C45",
   "status": "proved",
   "theorems": [
    "Props.C45_width_accepted_iff",
    "Props.C45_width_rejected",
    "Props.C45_natural_width",
    "Props.C45_dtype",
    "Props.C45_names"
   ],
   "note": ""
  },
  {
   "property": "C46",
   "status": "proved",
   "theorems": [
    "Props.C46_insert",
    "Props.C46_siblings",
    "Props.C46_find_path",
    "Props.C46_path_injective",
    "Props.C46_find_sound",
    "Props.C46_insert_found"
   ],
   "note": ""
  },
  {
   "property": "C47",
   "status": "proved",
   "theorems": [
    "Props.C47_definitions_kept",
    "Props.C47_nothing_lost",
    "Props.C47_nothing_added",
    "Props.C47_duplicates_rejected",
    "Props.C47_accepted"
   ],
   "note": ""
  },
  {
   "property": "C48",
   "status": "proved",
   "theorems": [
    "Props.C48_ready",
    "Props.C48_only_references_change",
    "Props.C48_stays_good",
    "Props.C48_unambiguous",
    "Props.C48_lookup_unaffected",
    "Props.C48_resolved",
    "Props.C48_errors",
    "Props.C48_missing_rejected",
    "Props.C48_accepted"
   ],
   "note": ""
  },
  {
   "property": "C49",
   "status": "proved",
   "theorems": [
    "Props.C49_dependency_order",
    "Props.C49_all_dependencies_before",
    "Props.C49_discovery_order"
   ],
   "note": ""
  },
  {
   "property": "C50",
   "status": "proved",
   "theorems": [
    "Props.C50_terminates",
    "Props.C50_circular_iff"
   ],
   "note": ""
  },
  {
   "property": "C51",
   "status": "proved",
   "theorems": [
    "Props.C51_breadth_first",
    "Props.C51_unique"
   ],
   "note": ""
  },
  {
   "property": "C52",
   "status": "proved",
   "theorems": [
    "Props.C52_max_size"
   ],
   "note": ""
  },
  {
   "property": "C53",
   "status": "proved",
   "theorems": [
    "Props.C53_ranges",
    "Props.C53_exact"
   ],
   "note": ""
  },
  {
   "property": "C54",
   "status": "proved",
   "theorems": [
    "Props.C54_constants",
    "Props.C54_exact"
   ],
   "note": ""
  },
  {
   "property": "C55",
   "status": "proved",
   "theorems": [
    "Props.C55_unreferenced_constants"
   ],
   "note": ""
  },
  {
   "property": "C56",
   "status": "proved",
   "theorems": [
    "Props.C56_schema",
    "Props.C56_definitions",
    "Props.C56_resources",
    "Props.C56_nested",
    "Props.C56_nested_resources",
    "Props.C56_nested_witness"
   ],
   "note": ""
  },
  {
   "property": "C57",
   "status": "proved",
   "theorems": [
    "Props.C57_definitions",
    "Props.C57_resources",
    "Props.C57_witness",
    "Props.C57_counterexample_builtin"
   ],
   "note": ""
  },
  {
   "property": "C58",
   "status": "proved",
   "theorems": [
    "Props.C58_python",
    "Props.C58_python_raw",
    "Props.C58_cpp",
    "Props.C58_raw",
    "Props.C58_schema"
   ],
   "note": ""
  },
  {
   "property": "C59",
   "status": "proved",
   "theorems": [
    "Props.C59_grouped",
    "Props.C59_value",
    "Props.C59_injective"
   ],
   "note": ""
  },
  {
   "property": "C60",
   "status": "proved",
   "theorems": [
    "Props.C60_module",
    "Props.C60_witness",
    "Props.C60_counterexample_classes",
    "Props.C60_counterexample_case",
    "Props.C60_counterexample_mangled",
    "Props.C60_counterexample_shadowed"
   ],
   "note": ""
  },
  {
   "property": "C61",
   "status": "proved",
   "theorems": [
    "Props.C61_binding_resources"
   ],
   "note": ""
  },
  {
   "property": "C62",
   "status": "proved",
   "theorems": [
    "Props.C62_layout"
   ],
   "note": ""
  },
  {
   "property": "C63",
   "status": "proved",
   "theorems": [
    "Props.C63_index_type",
    "Props.C63_generated_type"
   ],
   "note": ""
  },
  {
   "property": "C64",
   "status": "proved",
   "theorems": [
    "Props.C64_total",
    "Props.C64_acyclic"
   ],
   "note": ""
  },
  {
   "property": "C65",
   "status": "proved",
   "theorems": [
    "Props.C65_explicit_references"
   ],
   "note": ""
  },
  {
   "property": "C66",
   "status": "proved",
   "theorems": [
    "Props.C66_constants",
    "Props.C66_enumerations",
    "Props.C66_structures",
    "Props.C66_archives",
    "Props.C66_only",
    "Props.C66_witness"
   ],
   "note": ""
  },
  {
   "property": "C67",
   "status": "proved",
   "theorems": [
    "Props.C67_generated_roundtrip",
    "Props.C67_witness"
   ],
   "note": "Assumes besides C60: nothing declared in a namespace `_builtin`, fields of at least one bit, at most 256 structures per multivector, and no resource named like the index file of a multivector (`NoIndexClash`; two such resources write the same file)."
  },
  {
   "property": "C68",
   "status": "proved",
   "theorems": [
    "Props.C68_same_data",
    "Props.C68_writer_reader",
    "Props.C68_witness",
    "Props.C68_counterexample_order"
   ],
   "note": "Assumes simple schemas as in C57 (`Flat`, `NoBuiltin`) and nothing declared in a namespace `_builtin`. Whether a directory with the same meaning is accepted at all is not claimed: `C68_counterexample_order` (finding G14) shows two schemas differing only in the order of decorators that refuse each other's data."
  },
  {
   "property": "C69",
   "status": "proved",
   "theorems": [
    "Props.C69_layout",
    "Props.C69_compile",
    "Props.C69_counterexample_empty",
    "Props.C69_witness"
   ],
   "note": ""
  },
  {
   "property": "C70",
   "status": "proved",
   "theorems": [
    "Props.C70_cpp_read",
    "Props.C70_padding_needed"
   ],
   "note": ""
  },
  {
   "property": "C71",
   "status": "proved",
   "theorems": [
    "Props.C71_cpp_write_exact",
    "Props.C71_cpp_write",
    "Props.C71_cpp_round_trip",
    "Props.C71_counterexample_enum",
    "Props.C71_counterexample_overflow"
   ],
   "note": ""
  },
  {
   "property": "C72",
   "status": "proved",
   "theorems": [
    "Props.C72_rust_read",
    "Props.C72_ninth_byte_ignored",
    "Props.C72_counterexample"
   ],
   "note": ""
  },
  {
   "property": "C73",
   "status": "proved",
   "theorems": [
    "Props.C73_rust_write_exact",
    "Props.C73_rust_write",
    "Props.C73_rust_round_trip",
    "Props.C73_ninth_byte_lost",
    "Props.C73_counterexample",
    "Props.C73_counterexample_overflow"
   ],
   "note": ""
  },
  {
   "property": "C74",
   "status": "proved",
   "theorems": [
    "Props.C74_go_read_exact",
    "Props.C74_go_get",
    "Props.C74_counterexample",
    "Props.C74_padding_needed"
   ],
   "note": ""
  },
  {
   "property": "C75",
   "status": "proved",
   "theorems": [
    "Props.C75_readers_agree",
    "Props.C75_bools_agree",
    "Props.C75_writers_agree"
   ],
   "note": ""
  },
  {
   "property": "C76",
   "status": "proved",
   "theorems": [
    "Props.C76_cpp_same_bytes",
    "Props.C76_rust_same_bytes",
    "Props.C76_counterexample"
   ],
   "note": ""
  },
  {
   "property": "C77",
   "status": "proved",
   "theorems": [
    "Props.C77_instance_files",
    "Props.C77_vector_files",
    "Props.C77_raw_data_files",
    "Props.C77_multivector_files"
   ],
   "note": ""
  },
  {
   "property": "C78",
   "status": "proved",
   "theorems": [
    "Props.C78_cpp_vector_files",
    "Props.C78_cpp_multivector_files",
    "Props.C78_cpp_set_files",
    "Props.C78_cpp_struct",
    "Props.C78_cpp_vector",
    "Props.C78_counterexample_grow",
    "Props.C78_counterexample_empty_range"
   ],
   "note": "Values in the range of their fields, no -1 in one-bit fields (finding N1, N4). For `Vector` no element is added after one was removed: finding N5 (`C78_counterexample_grow`) shows the claim is false otherwise. Streams do not fail."
  },
  {
   "property": "C79",
   "status": "proved",
   "theorems": [
    "Props.C79_cpp_accepts_iff",
    "Props.C79_cpp_instance",
    "Props.C79_cpp_raw_data",
    "Props.C79_cpp_vector",
    "Props.C79_cpp_multivector"
   ],
   "note": "Files smaller than 2^64 bytes; C++ member types as generated (`CppTypes`: wide enough, signedness of the field)."
  },
  {
   "property": "C80",
   "status": "proved",
   "theorems": [
    "Props.C80_python_reads_vector",
    "Props.C80_python_reads_instance",
    "Props.C80_python_reads_multivector",
    "Props.C80_cpp_to_python_vector",
    "Props.C80_cpp_to_python_multivector",
    "Props.C80_python_to_cpp_vector",
    "Props.C80_python_to_cpp_multivector",
    "Props.C80_same_files_vector",
    "Props.C80_same_files_multivector"
   ],
   "note": "What Python shows is stated as in C12-C14 (`ReadsAs`, with its two documented defects), what C++ shows as in C79."
  },
  {
   "property": "C81",
   "status": "proved",
   "theorems": [
    "Props.C81_rust_vector_files",
    "Props.C81_rust_set_files",
    "Props.C81_rust_create_archive",
    "Props.C81_rust_vector",
    "Props.C81_counterexample_spare",
    "Props.C81_rust_multivector_files"
   ],
   "note": "Structures without nine-byte fields behind the first byte (`RustStruct`, finding N2); streams do not fail; sizes below 2^64. `C81_counterexample_spare` is finding N8."
  },
  {
   "property": "C82",
   "status": "proved",
   "theorems": [
    "Props.C82_counterexample_range",
    "Props.C82_rust_multivector",
    "Props.C82_rust_accepts_iff",
    "Props.C82_rust_instance",
    "Props.C82_rust_raw_data",
    "Props.C82_rust_substring",
    "Props.C82_rust_vector"
   ],
   "note": "Rust types as generated (`RustTypes`), `RustStruct`; ranges only for fields that do not span nine bytes (`C82_counterexample_range`, finding N10)."
  },
  {
   "property": "C83",
   "status": "proved",
   "theorems": [
    "Props.C83_same_files_vector",
    "Props.C83_same_files_multivector",
    "Props.C83_rust_to_python_vector",
    "Props.C83_rust_to_cpp_vector",
    "Props.C83_rust_to_python_multivector",
    "Props.C83_rust_to_cpp_multivector",
    "Props.C83_python_to_rust_vector",
    "Props.C83_python_to_rust_multivector",
    "Props.C83_cpp_to_rust_vector",
    "Props.C83_cpp_to_rust_multivector",
    "Props.C83_counterexample_empty_range"
   ],
   "note": "What Python shows is stated as in C12-C14, C++ as in C79, Rust as in C82. `C83_counterexample_empty_range` is finding N9."
  },
  {
   "property": "C84",
   "status": "proved",
   "theorems": [
    "Props.C84_rust_open",
    "Props.C84_rust_open_panics",
    "Props.C84_absent_means_no_file",
    "Props.C84_counterexample_panic"
   ],
   "note": "Files smaller than 2^64 bytes; the specification is the inductive relation `OpensTo` (and `Panics`). `C84_counterexample_panic` is finding N11."
  },
  {
   "property": "C85",
   "status": "proved",
   "theorems": [
    "Props.C85_cpp_open"
   ],
   "note": "Files smaller than 2^64 bytes; specifications `CppFine` and `CppOpensTo`. C++ takes an empty schema file for a missing one."
  },
  {
   "property": "C86",
   "status": "proved",
   "theorems": [
    "Props.C86_rust_then_cpp",
    "Props.C86_same_values",
    "Props.C86_same_elements",
    "Props.C86_counterexample_broken_optional"
   ],
   "note": "Schemas are not empty. The converse is false: `C86_counterexample_broken_optional`."
  },
  {
   "property": "C87",
   "status": "proved",
   "theorems": [
    "Props.C87_go_instance",
    "Props.C87_go_raw_data",
    "Props.C87_go_vector",
    "Props.C87_go_slice",
    "Props.C87_go_multivector",
    "Props.C87_go_distinct",
    "Props.C87_counterexample_same_type",
    "Props.C87_counterexample_size",
    "Props.C87_counterexample_index"
   ],
   "note": "Go types as generated (`GoTypes`); files smaller than 2^61 bytes. `C87_counterexample_same_type`, `_size`, `_index` are findings N14, N17."
  },
  {
   "property": "C88",
   "status": "proved",
   "theorems": [
    "Props.C88_go_open",
    "Props.C88_go_empty_directory",
    "Props.C88_rust_then_go",
    "Props.C88_counterexample_upper_case",
    "Props.C88_counterexample_unchecked"
   ],
   "note": "The generated code is correct Go only if the resource and the archive it refers to have the same name, which is assumed. Counterexamples are findings N15 and N16."
  },
  {
   "property": "C89",
   "status": "proved",
   "theorems": [
    "Props.C89_cpp",
    "Props.C89_rust",
    "Props.C89_go",
    "Props.C89_cpp_reads",
    "Props.C89_rust_reads",
    "Props.C89_go_reads",
    "Props.C89_witness",
    "Props.C89_witness_go"
   ],
   "note": "`Spec/NativeClasses.lean` says how compilers look up types. Names of members and enumerators are not checked for collisions (findings G16-G18). `Flat` as in C55; `RustNameable` excludes `repr(bool)` and a namespace `super`."
  },
  {
   "property": "C90",
   "status": "proved",
   "theorems": [
    "Props.C90_rust",
    "Props.C90_cpp",
    "Props.C90_witness",
    "Props.C90_counterexample"
   ],
   "note": "`C90_counterexample` is finding N18: undefined behaviour in Rust for signed enumerations of one bit."
  },
  {
   "property": "C91",
   "status": "proved",
   "theorems": [
    "Props.C91_rust_equal",
    "Props.C91_rust_equal_getters",
    "Props.C91_cpp_equal",
    "Props.C91_equal_agree",
    "Props.C91_equal_agree_full",
    "Props.C91_counterexample_unused_bits",
    "Props.C91_cpp_less",
    "Props.C91_cpp_less_order",
    "Props.C91_counterexample_order",
    "Props.C91_fill_from"
   ],
   "note": "Fields that span nine bytes (finding of C72) are excluded for Rust. `C91_counterexample_*` are findings N19, N20."
  },
  {
   "property": "C92",
   "status": "proved",
   "theorems": [
    "Props.C92_rust_get",
    "Props.C92_rust_round_trip",
    "Props.C92_cpp_get",
    "Props.C92_cpp_round_trip",
    "Props.C92_agree",
    "Props.C92_counterexample_one_bit"
   ],
   "note": "`C92_counterexample_one_bit` is finding N21."
  },
  {
   "property": "C93",
   "status": "proved",
   "theorems": [
    "Props.C93_witness",
    "Props.C93_counterexample_lower_case",
    "Props.C93_counterexample_same_name",
    "Props.C93_counterexample_bool",
    "Props.C93_cpp",
    "Props.C93_rust_names",
    "Props.C93_rust",
    "Props.C93_rust_lower_case",
    "Props.C93_rust_slots",
    "Props.C93_cpp_slots",
    "Props.C93_consecutive"
   ],
   "note": "`Flat` excludes namespaces below definitions (finding of C89). Rust: `RustConstsNameable` excludes lower-case letters, `bool` and a namespace `super`; `C93_rust_lower_case` and `C93_counterexample_*` are findings N23, N24. `C93_*_slots`, `C93_consecutive` connect the generated members with C91, C92."
  },
  {
   "property": "C94",
   "status": "proved",
   "theorems": [
    "Props.C94_reads",
    "Props.C94_storage",
    "Props.C94_open",
    "Props.C94_counterexample_directory",
    "Props.C94_counterexample_prefix",
    "Props.C94_counterexample_twice",
    "Props.C94_counterexample_blank"
   ],
   "note": "`TarImage` leaves out pax headers, links, sparse files and the POSIX prefix, which the reader rejects or ignores; long names of directories (finding N26). `C94_counterexample_*`: N26-N29. The memory map itself and `std::unordered_map` are trusted."
  },
  {
   "property": "C95",
   "status": "proved",
   "theorems": [
    "Props.C95_safe",
    "Props.C95_sound",
    "Props.C95_ends",
    "Props.C95_ends_octal",
    "Props.C95_counterexample_endless"
   ],
   "note": "`size_t` has 64 bits and additions wrap. `C95_counterexample_endless` is finding N25: one block of 512 bytes on which the loop never ends."
  },
  {
   "property": "C96",
   "status": "proved",
   "theorems": [
    "Props.C96_lines",
    "Props.C96_script",
    "Props.C96_context",
    "Props.C96_explained",
    "Props.C96_changes",
    "Props.C96_empty",
    "Props.C96_counterexample_write",
    "Props.C96_counterexample_newline",
    "Props.C96_counterexample_last"
   ],
   "note": "The write outside of `result_mask` (finding N31) has no effect in the model. That the stored schema ends with a zero byte is assumed (finding N33)."
  },
  {
   "property": "C97",
   "status": "proved",
   "theorems": [
    "Props.C97_rust_then_python",
    "Props.C97_same_values",
    "Props.C97_same_elements",
    "Props.C97_same_buckets",
    "Props.C97_counterexample_schema_only",
    "Props.C97_counterexample_truncated"
   ],
   "note": "`FilesBelow` says that Rust sees the files below the directory by their paths; `filesBelow_ok`: every directory can be seen like this. `SameDecls` relates the declarations in Rust and Python. `C97_counterexample_schema_only` is finding N34; the converse fails (`C97_counterexample_truncated`)."
  },
  {
   "property": "C98",
   "status": "proved",
   "theorems": [
    "Props.C98_witness",
    "Props.C98_counterexample_archives",
    "Props.C98_counterexample_resources",
    "Props.C98_counterexample_multivector",
    "Props.C98_counterexample_two_archives",
    "Props.C98_counterexample_elements",
    "Props.C98_counterexample_builtin",
    "Props.C98_rust",
    "Props.C98_same_archives",
    "Props.C98_rust_elements"
   ],
   "note": "`Spec/NativeArchives.lean` says what a Rust compiler makes of the items of the program (modules, paths, constants with raw strings) and what it is to read in terms of the schema. `C98_same_archives` combines this with C60 and C97 (multivectors of width 0 are excluded: finding G10). The counterexamples are findings N35-N38. That structures with ranges are used in vectors only, which the Rust code needs, follows from C53."
  },
  {
   "property": "C99",
   "status": "proved",
   "theorems": [
    "Props.C99_escaped",
    "Props.C99_escape_clash",
    "Props.C99_rust",
    "Props.C99_witness",
    "Props.C99_counterexample_escape",
    "Props.C99_counterexample_async",
    "Props.C99_counterexample_setter",
    "Props.C99_counterexample_function",
    "Props.C99_counterexample_ranges",
    "Props.C99_counterexample_enum_range",
    "Props.C99_counterexample_values",
    "Props.C99_counterexample_self",
    "Props.C99_counterexample_resource",
    "Props.C99_counterexample_storage",
    "Props.C99_counterexample_archive",
    "Props.C99_counterexample_result",
    "Props.C99_counterexample_pattern"
   ],
   "note": "`Spec/NativeNames.lean` says what a compiler demands and what the schema has to avoid. Each condition that is not a matter of taste has a counterexample: an accepted schema that violates it and whose generated code is rejected (findings G18, N39, N40)."
  },
  {
   "property": "C100",
   "status": "proved",
   "theorems": [
    "Props.C100_cpp",
    "Props.C100_cpp_elements",
    "Props.C100_same_archives",
    "Props.C100_witness",
    "Props.C100_counterexample_mutator",
    "Props.C100_counterexample_builder",
    "Props.C100_counterexample_schema",
    "Props.C100_counterexample_internal",
    "Props.C100_counterexample_instance",
    "Props.C100_counterexample_wide"
   ],
   "note": "`Spec/CppArchives.lean` says what a C++ compiler makes of the items of the header and what it demands; what is to be read is the same relation as in C98. `C100_same_archives` combines this with C98 and C86. The counterexamples are findings N41 and N42."
  },
  {
   "property": "C101",
   "status": "proved",
   "theorems": [
    "Props.C101_language",
    "Props.C101_rejected",
    "Props.C101_unambiguous",
    "Props.C101_sample_rules",
    "Props.C101_sample_accepts",
    "Props.C101_sample_joined",
    "Props.C101_sample_together",
    "Props.C101_sample_rejects"
   ],
   "note": "`Spec/Syntax.lean` is the grammar. `C101_sample_rules` derives a schema from the rules without the parser, `C101_sample_accepts` and `C101_sample_rejects` evaluate the parser. Findings N43 and N44. C69 is a corollary for texts that are accepted."
  },
  {
   "property": "C102",
   "status": "proved",
   "theorems": [
    "Props.C102_python",
    "Props.C102_python_field",
    "Props.C102_docstring",
    "Props.C102_go",
    "Props.C102_go_field",
    "Props.C102_comment",
    "Props.C102_cpp",
    "Props.C102_rust",
    "Props.C102_rust_usual",
    "Props.C102_rust_unstarred",
    "Props.C102_rust_inner",
    "Props.C102_cpp_spliced"
   ],
   "note": "`Spec/Documentation.lean` says what a compiler passes over. `C102_comment`: what the parser reads as a comment is a `DocText`. The conditions for C++ and Rust are needed: `C102_cpp_spliced`, `C102_rust_unstarred`, `C102_rust_inner` (finding N45)."
  },
  {
   "property": "C103",
   "status": "proved",
   "theorems": [
    "Props.C103_accepted_iff",
    "Props.C103_names_iff",
    "Props.C103_accepted_iff_names"
   ],
   "note": "`Spec/WellFormed.lean` has the conditions in terms of the tree with resolved names, before anything is computed. `C103_names_iff` is the part about names, `C103_accepted_iff` the rest, `C103_accepted_iff_names` both. When definitions can be merged is the subject of C47."
  },
  {
   "property": "C104",
   "status": "proved",
   "theorems": [
    "Props.C104_root_namespace",
    "Props.C104_archive_class",
    "Props.C104_builder_class",
    "Props.C104_direct",
    "Props.C104_direct_builder",
    "Props.C104_inspector",
    "Props.C104_same",
    "Props.C104_writer",
    "Props.C104_writer_detected",
    "Props.C104_witness",
    "Props.C104_nested"
   ],
   "note": "This instantiates the parameter `engine` of C38 with the modelled compiler and Python generator (C60). Two outermost namespaces in the closure of an archive make the stored schema ambiguous for the inspector; archives in nested namespaces are not found (`C104_nested`, N47)."
  },
  {
   "property": "C105",
   "status": "proved",
   "theorems": [
    "Props.C105_field_of_structure",
    "Props.C105_counterexample"
   ],
   "note": "`C105_counterexample` is an accepted source with a namespace in the path of an archive, where the field belongs to another structure (N48)."
  },
  {
   "property": "C106",
   "status": "proved",
   "theorems": [
    "Props.C106_compiles",
    "Props.C106_same",
    "Props.C106_only",
    "Props.C106_witness",
    "Props.C106_counterexample_outside",
    "Props.C106_counterexample_twice",
    "Props.C106_unstable_decorations",
    "Props.C106_unstable_constants"
   ],
   "note": "`C106_compiles`, `C106_same` and `C106_only` together. What is excluded is really rejected: `C106_counterexample_outside`, `C106_counterexample_twice`, and `C56_nested` for nested namespaces. Equality of the texts themselves is not claimed and false: `C106_unstable_decorations`, `C106_unstable_constants` (N50)."
  },
  {
   "property": "C107",
   "status": "proved",
   "theorems": [
    "Props.C107_definitions",
    "Props.C107_fixpoint",
    "Props.C107_resources",
    "Props.C107_importable",
    "Props.C107_class",
    "Props.C107_namespace",
    "Props.C107_inspector",
    "Props.C107_witness",
    "Props.C107_witness_two",
    "Props.C107_witness_inspector"
   ],
   "note": "`C107_definitions`, `C107_fixpoint`, `C107_resources`, `C107_class` and `C107_inspector` together. `Settled` excludes what changes a text: `C106_unstable_decorations`, `C106_unstable_constants` (N50); with at most one constant only the order of decorations remains (`settled_single`). `C107_witness_inspector` is a directory written by a generated builder."
  },
  {
   "property": "C108",
   "status": "proved",
   "theorems": [
    "Props.C108_drawing",
    "Props.C108_no_drawing",
    "Props.C108_witness",
    "Props.C108_counterexample_nested",
    "Props.C108_counterexample_ids",
    "Props.C108_counterexample_self",
    "Props.C108_counterexample_labels"
   ],
   "note": "`C108_drawing` and `C108_no_drawing`. What the conditions exclude: `C108_counterexample_nested`, `C108_counterexample_self` (N51). The drawing is the structure of the graph description, not its text; identifiers need not be unique (`C108_counterexample_ids`, N52)."
  },
  {
   "property": "C109",
   "status": "proved",
   "theorems": [
    "Props.C109_size",
    "Props.C109_text",
    "Props.C109_close",
    "Props.C109_structure",
    "Props.C109_counterexample_names",
    "Props.C109_witness",
    "Props.C109_counterexample_index",
    "Props.C109_counterexample_absent",
    "Props.C109_witness_structure",
    "Props.C109_names"
   ],
   "note": "`C109_size`, `C109_close`, `C109_text`, `C109_structure` together; `C109_names`: the hypotheses on names hold for the structures of every accepted schema. `GoLoaded` says which objects `Open` leaves. Findings N54, N55."
  },
  {
   "property": "C110",
   "status": "proved",
   "theorems": [
    "C110_elements",
    "C110_slice",
    "C110_move",
    "C110_compare",
    "C110_difference",
    "C110_loop",
    "C110_bytes",
    "C110_view",
    "C110_describe",
    "C110_counterexample_difference",
    "C110_counterexample_skip"
   ],
   "note": "The theorems together. Slices of slices: `C110_slice` gives the hypothesis of all theorems for the slice. Wrong outside of the bounds and for negative differences: `C110_counterexample_difference`, `C110_counterexample_skip` (N56)."
  },
  {
   "property": "C111",
   "status": "proved",
   "theorems": [
    "C111_table",
    "C111_array",
    "C111_last",
    "C111_counterexample_last"
   ],
   "note": "`C111_table`, `C111_array`, `C111_last` together; `C111_counterexample_last` (N57)."
  }
 ]
}