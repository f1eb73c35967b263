{
 "claims": [
  {
   "property": "C01",
   "status": "proved",
   "theorems": [
    "NS.C01_bin_round_trip",
    "NS.C01_bin_round_trip_exact"
   ],
   "note": "SystemTime values before the epoch are excluded (C11 says what happens to them). Values whose set/map elements carry skipped fields are covered whenever the reset value is well typed."
  },
  {
   "property": "C02",
   "status": "proved",
   "theorems": [
    "NS.C02_bin_embedded"
   ],
   "note": ""
  },
  {
   "property": "C03",
   "status": "proved",
   "theorems": [
    "NS.C03_bin_truncation"
   ],
   "note": ""
  },
  {
   "property": "C04",
   "status": "proved",
   "theorems": [
    "NS.C04_bin_local"
   ],
   "note": ""
  },
  {
   "property": "C05",
   "status": "proved",
   "theorems": [
    "NS.C05_bin_string_panics",
    "NS.C05_bin_vec_panics",
    "NS.C05_bin_duration_panics",
    "NS.C05_bin_systemtime_panics",
    "NS.C05_bin_panics_only",
    "NS.C05_bin_panics_at",
    "NS.C05_bin_small_lengths",
    "NS.C05_bin_no_panic"
   ],
   "note": "C05_bin_panics_only and C05_bin_panics_at together characterise the panics: only where PanicsAt holds for a type occurring in t, and there the reader does panic."
  },
  {
   "property": "C06",
   "status": "proved",
   "theorems": [
    "NS.C06_bin_prefix_free",
    "NS.C06_bin_injective"
   ],
   "note": ""
  },
  {
   "property": "C07",
   "status": "proved",
   "theorems": [
    "NS.C07_bin_enum_layout",
    "NS.C07_bin_unknown_discriminant",
    "NS.C07_bin_discriminant_selects"
   ],
   "note": ""
  },
  {
   "property": "C08",
   "status": "proved",
   "theorems": [
    "NS.C08_bin_int_bytes",
    "NS.C08_bin_string_layout",
    "NS.C08_bin_seq_layout",
    "NS.C08_bin_map_layout",
    "NS.C08_bin_array_layout",
    "NS.C08_bin_tuple_layout",
    "NS.C08_bin_struct_layout",
    "NS.C08_bin_tuple_struct_layout",
    "NS.C08_bin_leaf_layout"
   ],
   "note": ""
  },
  {
   "property": "C09",
   "status": "proved",
   "theorems": [
    "NS.C09_bin_reencode",
    "NS.C09_bin_bool_lenient",
    "NS.C09_bin_option_lenient"
   ],
   "note": ""
  },
  {
   "property": "C10",
   "status": "proved",
   "theorems": [
    "NS.C10_bin_btreemap",
    "NS.C10_bin_hashmap",
    "NS.C10_bin_btreemap_order",
    "NS.C10_bin_btreeset",
    "NS.C10_bin_hashset"
   ],
   "note": ""
  },
  {
   "property": "C11",
   "status": "proved",
   "theorems": [
    "NS.C11_bin_duration",
    "NS.C11_bin_duration_range",
    "NS.C11_bin_systemtime"
   ],
   "note": ""
  },
  {
   "property": "C12",
   "status": "proved",
   "theorems": [
    "NS.C12_bin_length_error"
   ],
   "note": ""
  },
  {
   "property": "C13",
   "status": "proved",
   "theorems": [
    "NS.C13_bin_string_iff",
    "NS.C13_bin_string_invalid"
   ],
   "note": ""
  },
  {
   "property": "C14",
   "status": "proved",
   "theorems": [
    "NS.C14_bin_fixed_size",
    "NS.C14_bin_fixed_size_consumed"
   ],
   "note": ""
  },
  {
   "property": "C15",
   "status": "proved",
   "theorems": [
    "NS.C15_json_string_roundtrip"
   ],
   "note": ""
  },
  {
   "property": "C16",
   "status": "proved",
   "theorems": [
    "NS.C16_json_string_is_rfc8259"
   ],
   "note": ""
  },
  {
   "property": "C17",
   "status": "proved",
   "theorems": [
    "NS.C17_json_reads_rfc8259_strings",
    "NS.C17_json_unicode_escape",
    "NS.C17_json_surrogate_pair",
    "NS.C17_json_bad_unicode_rejected"
   ],
   "note": ""
  },
  {
   "property": "C18",
   "status": "proved",
   "theorems": [
    "NS.C18_json_unsigned_range"
   ],
   "note": ""
  },
  {
   "property": "C19",
   "status": "proved",
   "theorems": [
    "NS.C19_json_signed_range",
    "NS.C19_json_signed_wraps"
   ],
   "note": ""
  },
  {
   "property": "C20",
   "status": "proved",
   "theorems": [
    "NS.C20_json_int_roundtrip"
   ],
   "note": ""
  },
  {
   "property": "C21",
   "status": "proved",
   "theorems": [
    "NS.C21_json_roundtrip"
   ],
   "note": ""
  },
  {
   "property": "C22",
   "status": "proved",
   "theorems": [
    "NS.C22_json_output_is_rfc8259",
    "NS.C22_json_nonfinite_invalid",
    "NS.C22_json_integer_keys_invalid",
    "NS.C22_json_variant_trailing_comma",
    "NS.C22_json_rename_quote_invalid"
   ],
   "note": ""
  },
  {
   "property": "C23",
   "status": "proved",
   "theorems": [
    "NS.C23_json_layout",
    "NS.C23_json_layout_around"
   ],
   "note": ""
  },
  {
   "property": "C24",
   "status": "proved",
   "theorems": [
    "NS.C24_json_illegible_rejected",
    "NS.C24_json_trailing_ignored"
   ],
   "note": ""
  },
  {
   "property": "C25",
   "status": "proved",
   "theorems": [
    "NS.C25_json_struct_meaning",
    "NS.C25_json_member_order"
   ],
   "note": ""
  },
  {
   "property": "C26",
   "status": "proved",
   "theorems": [
    "NS.C26_json_unknown_ignored",
    "NS.C26_json_empty_struct_rejects"
   ],
   "note": ""
  },
  {
   "property": "C27",
   "status": "proved",
   "theorems": [
    "NS.C27_json_absent_default",
    "NS.C27_json_absent_option",
    "NS.C27_json_missing_key"
   ],
   "note": ""
  },
  {
   "property": "C28",
   "status": "proved",
   "theorems": [
    "NS.C28_json_last_member_wins",
    "NS.C28_json_hashmap_last_wins",
    "NS.C28_json_btreemap_last_wins",
    "NS.C28_json_map_accepts_only"
   ],
   "note": ""
  },
  {
   "property": "C29",
   "status": "proved",
   "theorems": [
    "NS.C29_json_skip_no_influence",
    "NS.C29_json_skip_not_written",
    "NS.C29_json_skip_reads_default",
    "NS.C29_json_skip_in_variant_reads_default",
    "NS.C29_json_skip_in_variant_written"
   ],
   "note": ""
  },
  {
   "property": "C30",
   "status": "proved",
   "theorems": [
    "NS.C30_json_rename_written",
    "NS.C30_json_variant_written",
    "NS.C30_json_rename_in_variant_broken",
    "NS.C30_json_rename_quote_broken"
   ],
   "note": ""
  },
  {
   "property": "C31",
   "status": "proved",
   "theorems": [
    "NS.C31_json_terminates",
    "NS.C31_json_terminates_on_values",
    "NS.C31_json_terminates_without_named_fields",
    "NS.C31_json_hangs"
   ],
   "note": ""
  },
  {
   "property": "C32",
   "status": "proved",
   "theorems": [
    "NS.C32_json_panics_only",
    "NS.C32_json_no_panic_on_values",
    "NS.C32_json_no_panic_without_named_fields",
    "NS.C32_json_panics"
   ],
   "note": ""
  },
  {
   "property": "C33",
   "status": "proved",
   "theorems": [
    "NS.C33_json_error_position",
    "NS.C33_json_error_position_exact"
   ],
   "note": ""
  },
  {
   "property": "C34",
   "status": "proved",
   "theorems": [
    "NS.C34_json_enum_accepts",
    "NS.C34_json_enum_written",
    "NS.C34_json_unknown_unit",
    "NS.C34_json_unknown_variant",
    "NS.C34_json_next_string_wins",
    "NS.C34_json_string_contents"
   ],
   "note": ""
  },
  {
   "property": "C35",
   "status": "proved",
   "theorems": [
    "NS.C35_json_none_is_null",
    "NS.C35_json_null_is_none",
    "NS.C35_json_some_iff",
    "NS.C35_json_some_roundtrip",
    "NS.C35_json_some_none_collapses"
   ],
   "note": ""
  },
  {
   "property": "C36",
   "status": "proved",
   "theorems": [
    "NS.C36_json_f64_roundtrip",
    "NS.C36_json_f32_roundtrip",
    "NS.C36_json_reads_rfc8259_numbers",
    "NS.C36_json_plus_exponent_rejected",
    "NS.C36_json_big_integer_rejected",
    "NS.C36_json_nonfinite_unreadable"
   ],
   "note": ""
  },
  {
   "property": "C37",
   "status": "proved",
   "theorems": [
    "NS.C37_json_fixed_arity",
    "NS.C37_json_wrong_length",
    "NS.C37_json_not_array"
   ],
   "note": ""
  },
  {
   "property": "C38",
   "status": "proved",
   "theorems": [
    "NS.C38_json_serialize_total",
    "NS.C38_json_serialize_total_release",
    "NS.C38_json_empty_array_panics",
    "NS.C38_ron_serialize_total",
    "NS.C38_ron_serialize_total_release",
    "NS.C38_ron_empty_array_panics"
   ],
   "note": ""
  },
  {
   "property": "C39",
   "status": "proved",
   "theorems": [
    "NS.C39_ron_string_roundtrip",
    "NS.C39_ron_string_written"
   ],
   "note": ""
  },
  {
   "property": "C40",
   "status": "proved",
   "theorems": [
    "NS.C40_ron_roundtrip",
    "NS.C40_ron_some_none_collapses",
    "NS.C40_ron_variant_none_collapses",
    "NS.C40_ron_rename_in_variant_broken",
    "NS.C40_ron_rename_not_ident_broken",
    "NS.C40_ron_none_with_default_broken",
    "NS.C40_ron_field_true_broken"
   ],
   "note": ""
  },
  {
   "property": "C41",
   "status": "proved",
   "theorems": [
    "NS.C41_ron_layout",
    "NS.C41_ron_layout_around"
   ],
   "note": ""
  },
  {
   "property": "C42",
   "status": "proved",
   "theorems": [
    "NS.C42_ron_unknown_field",
    "NS.C42_ron_unknown_field_in_variant",
    "NS.C42_ron_empty_struct"
   ],
   "note": ""
  },
  {
   "property": "C43",
   "status": "proved",
   "theorems": [
    "NS.C43_ron_struct_fields",
    "NS.C43_ron_variant_fields",
    "NS.C43_ron_missing_field",
    "NS.C43_ron_missing_field_in_variant",
    "NS.C43_ron_member_order"
   ],
   "note": ""
  },
  {
   "property": "C44",
   "status": "proved",
   "theorems": [
    "NS.C44_ron_error_line",
    "NS.C44_ron_error_line_exact",
    "NS.C44_ron_column_zero"
   ],
   "note": ""
  },
  {
   "property": "C45",
   "status": "proved",
   "theorems": [
    "NS.C45_ron_terminates",
    "NS.C45_ron_ok_or_err",
    "NS.C45_ron_panics"
   ],
   "note": ""
  },
  {
   "property": "C46",
   "status": "proved",
   "theorems": [
    "NS.C46_ron_char_literals_ignored",
    "NS.C46_ron_lexical_errors"
   ],
   "note": ""
  },
  {
   "property": "C47",
   "status": "proved",
   "theorems": [
    "NS.C47_ron_unsigned_range",
    "NS.C47_ron_unsigned_minus",
    "NS.C47_ron_signed_range",
    "NS.C47_ron_signed_wraps",
    "NS.C47_ron_int_only_numerals",
    "NS.C47_ron_bool"
   ],
   "note": ""
  },
  {
   "property": "C48",
   "status": "proved",
   "theorems": [
    "NS.C48_toml_stops",
    "NS.C48_toml_panics_only",
    "NS.C48_toml_documents",
    "NS.C48_toml_panics"
   ],
   "note": ""
  },
  {
   "property": "C49",
   "status": "proved",
   "theorems": [
    "NS.C49_toml_document"
   ],
   "note": ""
  },
  {
   "property": "C50",
   "status": "proved",
   "theorems": [
    "NS.C50_toml_tables",
    "NS.C50_toml_tables_kept"
   ],
   "note": ""
  },
  {
   "property": "C51",
   "status": "proved",
   "theorems": [
    "NS.C51_toml_layout"
   ],
   "note": ""
  },
  {
   "property": "C52",
   "status": "proved",
   "theorems": [
    "NS.C52_toml_string",
    "NS.C52_toml_string_plain",
    "NS.C52_toml_empty_string_misread"
   ],
   "note": ""
  },
  {
   "property": "C53",
   "status": "proved",
   "theorems": [
    "NS.C53_toml_array",
    "NS.C53_toml_array_commas",
    "NS.C53_toml_word_comma_error"
   ],
   "note": ""
  },
  {
   "property": "C54",
   "status": "proved",
   "theorems": [
    "NS.C54_toml_integer",
    "NS.C54_toml_integer_range"
   ],
   "note": ""
  },
  {
   "property": "C55",
   "status": "proved",
   "theorems": [
    "NS.C55_toml_error_position"
   ],
   "note": ""
  },
  {
   "property": "C56",
   "status": "proved",
   "theorems": [
    "NS.C56_derive_first_value",
    "NS.C56_derive_flag",
    "NS.C56_derive_first_default",
    "NS.C56_derive_options_read",
    "NS.C56_derive_variant_options_read"
   ],
   "note": ""
  },
  {
   "property": "C57",
   "status": "proved",
   "theorems": [
    "NS.C57_derive_struct_container",
    "NS.C57_derive_enum_container_dropped"
   ],
   "note": ""
  },
  {
   "property": "C58",
   "status": "proved",
   "theorems": [
    "NS.C58_derive_struct_read",
    "NS.C58_derive_read_unique",
    "NS.C58_derive_private_ref_misread",
    "NS.C58_derive_pub_tuple_panics",
    "NS.C58_derive_pub_crate_panics"
   ],
   "note": ""
  },
  {
   "property": "C59",
   "status": "proved",
   "theorems": [
    "NS.C59_derive_enum_read",
    "NS.C59_derive_negative_discriminant_panics"
   ],
   "note": ""
  },
  {
   "property": "C60",
   "status": "proved",
   "theorems": [
    "NS.C60_derive_json_default",
    "NS.C60_derive_ron_default"
   ],
   "note": ""
  },
  {
   "property": "C61",
   "status": "proved",
   "theorems": [
    "NS.C61_derive_struct_header",
    "NS.C61_derive_enum_header",
    "NS.C61_derive_const_header",
    "NS.C61_derive_where_only_header",
    "NS.C61_derive_fn_arguments_dropped",
    "NS.C61_derive_assoc_after_argument"
   ],
   "note": ""
  },
  {
   "property": "C62",
   "status": "proved",
   "theorems": [
    "NS.C62_derive_struct_def",
    "NS.C62_derive_enum_def",
    "NS.C62_derive_bin_bytes"
   ],
   "note": ""
  },
  {
   "property": "C63",
   "status": "proved",
   "theorems": [
    "NS.C63_json_reads_meaning",
    "NS.C63_json_rejects_meaningless",
    "NS.C63_json_meaning_unique"
   ],
   "note": ""
  },
  {
   "property": "C64",
   "status": "proved",
   "theorems": [
    "NS.C64_ron_reads_exactly",
    "NS.C64_ron_reads_only",
    "NS.C64_ron_reading_unique"
   ],
   "note": ""
  },
  {
   "property": "C65",
   "status": "proved",
   "theorems": [
    "NS.C65_ron_rejects_iff",
    "NS.C65_ron_trailing"
   ],
   "note": ""
  },
  {
   "property": "C66",
   "status": "proved",
   "theorems": [
    "NS.C66_json_reads_exactly",
    "NS.C66_json_reads_only",
    "NS.C66_json_reading_unique",
    "NS.C66_json_reading_of_value",
    "NS.C66_json_meaning_is_said"
   ],
   "note": ""
  },
  {
   "property": "C67",
   "status": "proved",
   "theorems": [
    "NS.C67_json_rejected_means_nothing",
    "NS.C67_json_rejects_iff",
    "NS.C67_json_rejects_iff_without_named_fields",
    "NS.C67_json_trailing"
   ],
   "note": ""
  },
  {
   "property": "C68",
   "status": "proved",
   "theorems": [
    "NS.C68_bin_reads_exactly",
    "NS.C68_bin_deserialize_exactly",
    "NS.C68_bin_reading_unique",
    "NS.C68_bin_written_says"
   ],
   "note": ""
  },
  {
   "property": "C69",
   "status": "proved",
   "theorems": [
    "NS.C69_bin_terminates",
    "NS.C69_bin_rejects_iff",
    "NS.C69_bin_endless_type"
   ],
   "note": ""
  },
  {
   "property": "C70",
   "status": "proved",
   "theorems": [
    "NS.C70_toml_parses_exactly",
    "NS.C70_toml_one_reading",
    "NS.C70_toml_documents_read"
   ],
   "note": ""
  },
  {
   "property": "C71",
   "status": "proved",
   "theorems": [
    "NS.C71_toml_panics_iff",
    "NS.C71_toml_fails_iff"
   ],
   "note": ""
  },
  {
   "property": "C72",
   "status": "proved",
   "theorems": [
    "NS.C72_gen_bin_struct_writer",
    "NS.C72_gen_bin_enum_writer"
   ],
   "note": ""
  },
  {
   "property": "C73",
   "status": "proved",
   "theorems": [
    "NS.C73_gen_json_struct_writer",
    "NS.C73_gen_json_enum_writer"
   ],
   "note": ""
  },
  {
   "property": "C74",
   "status": "proved",
   "theorems": [
    "NS.C74_gen_ron_struct_writer",
    "NS.C74_gen_ron_enum_writer"
   ],
   "note": ""
  },
  {
   "property": "C75",
   "status": "proved",
   "theorems": [
    "NS.C75_gen_bin_struct_reader",
    "NS.C75_gen_bin_enum_reader"
   ],
   "note": ""
  },
  {
   "property": "C76",
   "status": "proved",
   "theorems": [
    "NS.C76_gen_json_struct_reader",
    "NS.C76_gen_json_enum_reader"
   ],
   "note": ""
  },
  {
   "property": "C77",
   "status": "proved",
   "theorems": [
    "NS.C77_gen_ron_struct_reader",
    "NS.C77_gen_ron_enum_reader"
   ],
   "note": ""
  },
  {
   "property": "C78",
   "status": "proved",
   "theorems": [
    "NS.C78_gen_bin_struct_round_trip",
    "NS.C78_gen_bin_enum_round_trip",
    "NS.C78_gen_json_struct_round_trip",
    "NS.C78_gen_json_enum_round_trip",
    "NS.C78_gen_ron_struct_round_trip",
    "NS.C78_gen_ron_enum_round_trip"
   ],
   "note": ""
  },
  {
   "property": "C79",
   "status": "proved",
   "theorems": [
    "NS.C79_gen_proxy_writer",
    "NS.C79_gen_proxy_reader",
    "NS.C79_gen_proxy_ron_reader_broken"
   ],
   "note": ""
  },
  {
   "property": "C80",
   "status": "proved",
   "theorems": [
    "NS.C80_json_evolution"
   ],
   "note": ""
  },
  {
   "property": "C81",
   "status": "proved",
   "theorems": [
    "NS.C81_bin_same_bytes",
    "NS.C81_bin_evolution",
    "NS.C81_bin_new_field_at_end",
    "NS.C81_bin_missing_field"
   ],
   "note": "The corresponding value must be a possible value of the new program (collections can be allocated, keys distinct and in order): hypothesis HasTy of C81_bin_evolution."
  },
  {
   "property": "C82",
   "status": "proved",
   "theorems": [
    "NS.C82_bin_array_sound",
    "NS.C82_json_array_sound",
    "NS.C82_ron_array_sound",
    "NS.C82_array_returned",
    "NS.C82_array_error_drops",
    "NS.C82_array_panic_no_double_drop"
   ],
   "note": ""
  },
  {
   "property": "C83",
   "status": "proved",
   "theorems": [
    "NS.C83_json_error_text",
    "NS.C83_ron_error_text",
    "NS.C83_toml_error_text",
    "NS.C83_json_error_text_tells",
    "NS.C83_ron_error_text_tells",
    "NS.C83_toml_error_text_tells",
    "NS.C83_bin_error_text_tells",
    "NS.C83_json_missing_key_text",
    "NS.C83_json_unknown_variant_text",
    "NS.C83_ron_unknown_field_text",
    "NS.C83_bin_length_text",
    "NS.C83_bin_unknown_variant_text"
   ],
   "note": ""
  },
  {
   "property": "C84",
   "status": "proved",
   "theorems": [
    "NS.C84_toml_lookup",
    "NS.C84_toml_table_lookup",
    "NS.C84_toml_arr_len",
    "NS.C84_toml_one_accessor",
    "NS.C84_toml_accessors"
   ],
   "note": ""
  },
  {
   "property": "C85",
   "status": "proved",
   "theorems": [
    "NS.C85_json_read_typed",
    "NS.C85_ron_read_typed"
   ],
   "note": ""
  },
  {
   "property": "C86",
   "status": "proved",
   "theorems": [
    "NS.C86_json_read_write_read",
    "NS.C86_ron_read_write_read",
    "NS.C86_ron_pair_none"
   ],
   "note": ""
  },
  {
   "property": "C87",
   "status": "proved",
   "theorems": [
    "NS.C87_json_injective",
    "NS.C87_ron_injective"
   ],
   "note": ""
  },
  {
   "property": "C88",
   "status": "proved",
   "theorems": [
    "NS.C88_json_each_exactly",
    "NS.C88_json_each_only",
    "NS.C88_json_until_eof_exactly",
    "NS.C88_ron_each_exactly",
    "NS.C88_ron_each_only",
    "NS.C88_ron_until_eof_exactly"
   ],
   "note": ""
  },
  {
   "property": "C89",
   "status": "proved",
   "theorems": [
    "NS.C89_json_lines_roundtrip",
    "NS.C89_ron_lines_roundtrip",
    "NS.C89_json_lines_of_unit_variants_lost",
    "NS.C89_ron_lines_of_unit_variants_lost"
   ],
   "note": ""
  },
  {
   "property": "C90",
   "status": "proved",
   "theorems": [
    "NS.C90_ron_evolution",
    "NS.C90_ron_removed_field"
   ],
   "note": ""
  },
  {
   "property": "C91",
   "status": "proved",
   "theorems": [
    "NS.C91_bin_nesting_linear",
    "NS.C91_json_nesting_linear",
    "NS.C91_ron_nesting_linear",
    "NS.C91_bin_nesting_unbounded",
    "NS.C91_json_nesting_unbounded",
    "NS.C91_ron_nesting_unbounded"
   ],
   "note": ""
  },
  {
   "property": "C92",
   "status": "proved",
   "theorems": [
    "NS.C92_json_value_within_text",
    "NS.C92_ron_value_within_text",
    "NS.C92_toml_map_within_text",
    "NS.C92_bin_value_within_bytes",
    "NS.C92_bin_elements_within_bytes",
    "NS.C92_bin_units_unbounded"
   ],
   "note": ""
  },
  {
   "property": "C93",
   "status": "proved",
   "theorems": [
    "NS.C93_json_truncated",
    "NS.C93_json_truncated_written",
    "NS.C93_json_truncated_rejects",
    "NS.C93_json_truncated_number",
    "NS.C93_ron_truncated",
    "NS.C93_ron_truncated_written",
    "NS.C93_ron_truncated_variant"
   ],
   "note": ""
  },
  {
   "property": "C94",
   "status": "proved",
   "theorems": [
    "NS.C94_json_to_bin",
    "NS.C94_ron_to_bin",
    "NS.C94_json_to_ron",
    "NS.C94_bin_to_json",
    "NS.C94_bin_to_ron",
    "NS.C94_skip_default_differs"
   ],
   "note": ""
  },
  {
   "property": "C95",
   "status": "proved",
   "theorems": [
    "NS.C95_json_cut_returns",
    "NS.C95_json_cut_rejects",
    "NS.C95_json_cut_written_returns",
    "NS.C95_json_cut_written_rejects",
    "NS.C95_json_cut_unknown_key"
   ],
   "note": ""
  },
  {
   "property": "C96",
   "status": "proved",
   "theorems": [
    "NS.C96_bin_to_32",
    "NS.C96_bin_to_64",
    "NS.C96_bin32_reads_exactly",
    "NS.C96_bin32_usize_truncated",
    "NS.C96_bin32_high_half_ignored",
    "NS.C96_bin32_string_panics"
   ],
   "note": ""
  },
  {
   "property": "C97",
   "status": "proved",
   "theorems": [
    "NS.C97_bin_any_order",
    "NS.C97_json_any_order",
    "NS.C97_ron_any_order",
    "NS.C97_bin_hash_to_btree",
    "NS.C97_bin_hashset_to_btree",
    "NS.C97_json_map_sorted",
    "NS.C97_json_set_sorted",
    "NS.C97_ron_map_sorted",
    "NS.C97_ron_set_sorted",
    "NS.C97_json_hash_to_btree",
    "NS.C97_ron_hash_to_btree"
   ],
   "note": ""
  },
  {
   "property": "C98",
   "status": "proved",
   "theorems": [
    "NS.C98_json_one_line",
    "NS.C98_ron_one_line",
    "NS.C98_json_lines",
    "NS.C98_ron_lines",
    "NS.C98_limits"
   ],
   "note": ""
  },
  {
   "property": "C99",
   "status": "proved",
   "theorems": [
    "NS.C99_json_vec_linked",
    "NS.C99_json_vec_sets",
    "NS.C99_json_tuple_array",
    "NS.C99_json_box",
    "NS.C99_json_vec_array",
    "NS.C99_ron_vec_linked",
    "NS.C99_ron_vec_sets",
    "NS.C99_ron_tuple_array",
    "NS.C99_ron_box",
    "NS.C99_bin_vec_others",
    "NS.C99_bin_linked_vec",
    "NS.C99_bin_tuple_array",
    "NS.C99_bin_box",
    "NS.C99_bin_struct_tuple"
   ],
   "note": ""
  },
  {
   "property": "C100",
   "status": "proved",
   "theorems": [
    "NS.C100_json32_same_texts",
    "NS.C100_ron32_same_texts",
    "NS.C100_json_small_usize",
    "NS.C100_ron_small_usize",
    "NS.C100_json_round_trip",
    "NS.C100_ron_round_trip",
    "NS.C100_json32_usize_truncated",
    "NS.C100_ron32_usize_truncated"
   ],
   "note": ""
  },
  {
   "property": "C101",
   "status": "proved",
   "theorems": [
    "NS.C101_bracket_counter_suffices",
    "NS.C101_bracket_counter_overflows",
    "NS.C101_bracket_counter_wraps"
   ],
   "note": ""
  },
  {
   "property": "C102",
   "status": "proved",
   "theorems": [
    "NS.C102_derive_parser_stops",
    "NS.C102_derive_type_stops",
    "NS.C102_derive_literal_hangs"
   ],
   "note": ""
  },
  {
   "property": "C103",
   "status": "proved",
   "theorems": [
    "NS.C103_bin_size_linear",
    "NS.C103_json_size_linear",
    "NS.C103_ron_size_linear",
    "NS.C103_json_nesting"
   ],
   "note": ""
  },
  {
   "property": "C104",
   "status": "proved",
   "theorems": [
    "NS.C104_toml_same_document",
    "NS.C104_toml_swap_assignments",
    "NS.C104_toml_swap_sections",
    "NS.C104_toml_section_is_prefix",
    "NS.C104_toml_swap_tables",
    "NS.C104_toml_join",
    "NS.C104_toml_override",
    "NS.C104_toml_join_accepted",
    "NS.C104_toml_join_tables"
   ],
   "note": ""
  },
  {
   "property": "C105",
   "status": "proved",
   "theorems": [
    "NS.C105_json_rehashed",
    "NS.C105_ron_rehashed",
    "NS.C105_json_rearranged",
    "NS.C105_ron_rearranged",
    "NS.C105_json_swapped",
    "NS.C105_ron_swapped"
   ],
   "note": ""
  }
 ]
}