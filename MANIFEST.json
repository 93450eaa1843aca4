{
 "claims": [
  {
   "property": "C01",
   "status": "proved",
   "theorems": [
    "Verif.P.C01_perm_of_list"
   ],
   "note": ""
  },
  {
   "property": "C02",
   "status": "proved",
   "theorems": [
    "Verif.P.C02_perm_of_dict"
   ],
   "note": ""
  },
  {
   "property": "C03",
   "status": "proved",
   "theorems": [
    "Verif.P.C03_any_cycles",
    "Verif.P.C03_bijective_iff",
    "Verif.P.C03_perm_of_cycles",
    "Verif.P.C03_overlapping_cycles"
   ],
   "note": "Overlapping cycles are accepted by the code, so the unrestricted claim 'the result is always a permutation' is false; C03_overlapping_cycles is the witness, C03_any_cycles and C03_bijective_iff say exactly what happens for all lists."
  },
  {
   "property": "C04",
   "status": "proved",
   "theorems": [
    "Verif.P.C04_periodic"
   ],
   "note": ""
  },
  {
   "property": "C05",
   "status": "proved",
   "theorems": [
    "Verif.P.C05_eq_extensional",
    "Verif.P.C05_period_minimal",
    "Verif.P.C05_length_minimal",
    "Verif.P.C05_neutral_iff"
   ],
   "note": ""
  },
  {
   "property": "C06",
   "status": "proved",
   "theorems": [
    "Verif.P.C06_mul"
   ],
   "note": ""
  },
  {
   "property": "C07",
   "status": "proved",
   "theorems": [
    "Verif.P.C07_mul_assoc",
    "Verif.P.C07_neutral_mul",
    "Verif.P.C07_mul_inverse",
    "Verif.P.C07_inverse_inverse",
    "Verif.P.C07_mul_inverse_rev"
   ],
   "note": ""
  },
  {
   "property": "C08",
   "status": "proved",
   "theorems": [
    "Verif.P.C08_pow",
    "Verif.P.C08_bijection",
    "Verif.P.C08_pow_add",
    "Verif.P.C08_pow_mul"
   ],
   "note": ""
  },
  {
   "property": "C09",
   "status": "proved",
   "theorems": [
    "Verif.P.C09_order"
   ],
   "note": ""
  },
  {
   "property": "C10",
   "status": "proved",
   "theorems": [
    "Verif.P.C10_cycles",
    "Verif.P.C10_cycles_unique",
    "Verif.P.C10_roundtrip"
   ],
   "note": ""
  },
  {
   "property": "C11",
   "status": "proved",
   "theorems": [
    "Verif.P.C11_sequence",
    "Verif.P.C11_sequence_default",
    "Verif.P.C11_roundtrip_finite",
    "Verif.P.C11_roundtrip_periodic"
   ],
   "note": ""
  },
  {
   "property": "C12",
   "status": "proved",
   "theorems": [
    "Verif.P.C12_apply_on_vector",
    "Verif.P.C12_permitted",
    "Verif.P.C12_action"
   ],
   "note": ""
  },
  {
   "property": "C13",
   "status": "proved",
   "theorems": [
    "Verif.P.C13_str"
   ],
   "note": ""
  },
  {
   "property": "C14",
   "status": "proved",
   "theorems": [
    "Verif.P.C14_right_decode",
    "Verif.P.C14_right_encode",
    "Verif.P.C14_right_error",
    "Verif.P.C14_left_decode",
    "Verif.P.C14_left_encode",
    "Verif.P.C14_left_error",
    "Verif.P.C14_inversion_vector"
   ],
   "note": ""
  },
  {
   "property": "C15",
   "status": "proved",
   "theorems": [
    "Verif.P.C15_rank_of_int",
    "Verif.P.C15_int_of_rank",
    "Verif.P.C15_periodic"
   ],
   "note": ""
  },
  {
   "property": "C16",
   "status": "proved",
   "theorems": [
    "Verif.P.C16_inversion_set_mem",
    "Verif.P.C16_inversion_set_to_count",
    "Verif.P.C16_inversion_set_roundtrip",
    "Verif.P.C16_parity_sign",
    "Verif.P.C16_parity_mul",
    "Verif.P.C16_parity_inverse"
   ],
   "note": ""
  },
  {
   "property": "C17",
   "status": "proved",
   "theorems": [
    "Verif.P.C17_cycle_partition"
   ],
   "note": ""
  },
  {
   "property": "C18",
   "status": "proved",
   "theorems": [
    "Verif.P.C18_cycles_dynamic",
    "Verif.P.C18_finite",
    "Verif.P.C18_default"
   ],
   "note": ""
  },
  {
   "property": "C19",
   "status": "proved",
   "theorems": [
    "Verif.A.C19_exposet_of_int",
    "Verif.A.C19_exposet_sorted",
    "Verif.A.C19_int_roundtrip",
    "Verif.A.C19_exposet_roundtrip",
    "Verif.A.C19_weight",
    "Verif.A.C19_vector_to_int"
   ],
   "note": ""
  },
  {
   "property": "C20",
   "status": "proved",
   "theorems": [
    "Verif.A.C20_index_to_evil",
    "Verif.A.C20_index_to_odious",
    "Verif.A.C20_evil_to_index",
    "Verif.A.C20_odious_to_index",
    "Verif.A.C20_strictly_monotone",
    "Verif.A.C20_negative"
   ],
   "note": ""
  },
  {
   "property": "C21",
   "status": "proved",
   "theorems": [
    "Verif.P.C21_factoradic"
   ],
   "note": ""
  },
  {
   "property": "C22",
   "status": "proved",
   "theorems": [
    "Verif.A.C22_negate_involution",
    "Verif.A.C22_abs",
    "Verif.A.C22_abs_eq",
    "Verif.A.C22_where",
    "Verif.A.C22_where_error",
    "Verif.A.C22_which",
    "Verif.A.C22_which_error",
    "Verif.A.C22_combo",
    "Verif.A.C22_abs_increase",
    "Verif.A.C22_want_string",
    "Verif.A.C22_want_string_vector",
    "Verif.A.C22_logic_str_injective",
    "Verif.A.C22_logic_str_vector_injective",
    "Verif.A.C22_abs_increase_vector",
    "Verif.A.C22_abs_increase_vector_error",
    "Verif.A.C22_flag_numbers",
    "Verif.A.C22_flag_strings"
   ],
   "note": ""
  },
  {
   "property": "C23",
   "status": "proved",
   "theorems": [
    "Verif.A.C23_apart_together",
    "Verif.A.C23_together_iff",
    "Verif.A.C23_together_apart",
    "Verif.A.C23_apart_errors",
    "Verif.A.C23_together_errors"
   ],
   "note": ""
  },
  {
   "property": "C24",
   "status": "proved",
   "theorems": [
    "Verif.A.C24_prime_factors",
    "Verif.A.C24_expected"
   ],
   "note": ""
  },
  {
   "property": "C25",
   "status": "proved",
   "theorems": [
    "Verif.A.C25_integer_determinant",
    "Verif.A.C25_integer_determinant_matrix"
   ],
   "note": ""
  },
  {
   "property": "C26",
   "status": "proved",
   "theorems": [
    "Verif.BV.C26_roundtrip",
    "Verif.BV.C26_intval_length",
    "Verif.BV.C26_intval_roundtrip",
    "Verif.BV.C26_intval_roundtrip_fails_for_empty",
    "Verif.BV.C26_intval_only",
    "Verif.BV.C26_intval_minimal_length",
    "Verif.BV.C26_exposet",
    "Verif.BV.C26_vector",
    "Verif.BV.C26_exposet_minimal_length",
    "Verif.BV.C26_exposet_minimal_length_empty",
    "Verif.BV.C26_negative_intval",
    "Verif.BV.C26_attributes",
    "Verif.BV.C26_argument_error"
   ],
   "note": ""
  },
  {
   "property": "C27",
   "status": "proved",
   "theorems": [
    "Verif.BV.C27_intval",
    "Verif.BV.C27_boolean_algebra",
    "Verif.BV.C27_unequal_lengths",
    "Verif.BV.C27_bitwise_smaller",
    "Verif.BV.C27_bitwise_smaller_order"
   ],
   "note": ""
  },
  {
   "property": "C28",
   "status": "proved",
   "theorems": [
    "Verif.BV.C28_order",
    "Verif.BV.C28_str"
   ],
   "note": ""
  },
  {
   "property": "C29",
   "status": "proved",
   "theorems": [
    "Verif.W.C29_atompattern",
    "Verif.W.C29_atompatterns",
    "Verif.W.C29_linear",
    "Verif.W.C29_leader_quadrant",
    "Verif.W.C29_accepts",
    "Verif.W.C29_prefab",
    "Verif.W.C29_walsh_function_to_index",
    "Verif.W.C29_walsh_function_to_index_iff",
    "Verif.W.C29_walsh_function_to_index_lengths"
   ],
   "note": ""
  },
  {
   "property": "C30",
   "status": "proved",
   "theorems": [
    "Verif.W.C30_walsh_and_oddness",
    "Verif.W.C30_walsh_and_oddness_sound",
    "Verif.W.C30_leader_and_quadrant",
    "Verif.W.C30_leader_and_quadrant_sound"
   ],
   "note": ""
  },
  {
   "property": "C31",
   "status": "proved",
   "theorems": [
    "Verif.SG.C31_sequence",
    "Verif.SG.C31_of_sequence",
    "Verif.SG.C31_valneg",
    "Verif.SG.C31_keyneg",
    "Verif.SG.C31_equality",
    "Verif.SG.C31_negator_length",
    "Verif.SG.C31_long_valneg",
    "Verif.SG.C31_matrix",
    "Verif.SG.C31_matrix_unchecked",
    "Verif.SG.C31_sequence_roundtrip",
    "Verif.SG.C31_pair",
    "Verif.SG.C31_pair_combination",
    "Verif.SG.C31_keyneg_index",
    "Verif.SG.C31_negative_index"
   ],
   "note": ""
  },
  {
   "property": "C32",
   "status": "proved",
   "theorems": [
    "Verif.SG.C32_product",
    "Verif.SG.C32_associative",
    "Verif.SG.C32_neutral",
    "Verif.SG.C32_inverse",
    "Verif.SG.C32_inverse_of_product"
   ],
   "note": ""
  },
  {
   "property": "C33",
   "status": "proved",
   "theorems": [
    "Verif.SG.C33_vector",
    "Verif.SG.C33_vector_action",
    "Verif.SG.C33_number",
    "Verif.SG.C33_number_action"
   ],
   "note": ""
  },
  {
   "property": "C34",
   "status": "proved",
   "theorems": [
    "Verif.W.C34_matrix",
    "Verif.W.C34_singular",
    "Verif.W.C34_bad_matrix",
    "Verif.W.C34_linear",
    "Verif.W.C34_complete",
    "Verif.W.C34_vector",
    "Verif.W.C34_dependent",
    "Verif.W.C34_bad_vector",
    "Verif.W.C34_perm_list",
    "Verif.W.C34_perm_object",
    "Verif.W.C34_arguments",
    "Verif.W.C34_trust_matrix",
    "Verif.W.C34_trust_vector",
    "Verif.W.C34_trust",
    "Verif.W.C34_trust_wrong"
   ],
   "note": ""
  },
  {
   "property": "C35",
   "status": "proved",
   "theorems": [
    "Verif.W.C35_mul",
    "Verif.W.C35_mul_perm",
    "Verif.W.C35_inverse",
    "Verif.W.C35_transpose",
    "Verif.W.C35_transpose_mul",
    "Verif.W.C35_determinant",
    "Verif.W.C35_pow"
   ],
   "note": ""
  },
  {
   "property": "C36",
   "status": "proved",
   "theorems": [
    "Verif.W.C36_complement_distance",
    "Verif.W.C36_eq_extensional",
    "Verif.W.C36_eq_perm",
    "Verif.W.C36_degree",
    "Verif.W.C36_matrix_vector",
    "Verif.W.C36_sequence",
    "Verif.W.C36_as_perm",
    "Verif.W.C36_roundtrip",
    "Verif.W.C36_str",
    "Verif.W.C36_complement_pattern",
    "Verif.W.C36_cycles_dynamic"
   ],
   "note": ""
  },
  {
   "property": "C37",
   "status": "proved",
   "theorems": [
    "Verif.SP.C37_construction",
    "Verif.SP.C37_canonical",
    "Verif.SP.C37_equality",
    "Verif.SP.C37_element_to_block",
    "Verif.SP.C37_domain_not_checked"
   ],
   "note": ""
  },
  {
   "property": "C38",
   "status": "proved",
   "theorems": [
    "Verif.SP.C38_history",
    "Verif.SP.C38_from_constructor",
    "Verif.SP.C38_order_independent",
    "Verif.SP.C38_permuted",
    "Verif.SP.C38_exceptions"
   ],
   "note": ""
  },
  {
   "property": "C39",
   "status": "proved",
   "theorems": [
    "Verif.SP.C39_meet",
    "Verif.SP.C39_meet_prototype"
   ],
   "note": ""
  },
  {
   "property": "C40",
   "status": "proved",
   "theorems": [
    "Verif.SP.C40_join_prototype_improved",
    "Verif.SP.C40_improved_negative",
    "Verif.SP.C40_join",
    "Verif.SP.C40_traversed",
    "Verif.SP.C40_domain_lost",
    "Verif.SP.C40_join_prototype"
   ],
   "note": ""
  },
  {
   "property": "C41",
   "status": "proved",
   "theorems": [
    "Verif.SP.C41_le",
    "Verif.SP.C41_le_other_domains",
    "Verif.SP.C41_partial_order",
    "Verif.SP.C41_lattice",
    "Verif.SP.C41_bounds"
   ],
   "note": ""
  },
  {
   "property": "C42",
   "status": "proved",
   "theorems": [
    "Verif.SP.C42_first_read",
    "Verif.SP.C42_first_read_canonical",
    "Verif.SP.C42_mixed_list",
    "Verif.SP.C42_frozen",
    "Verif.SP.C42_outdated"
   ],
   "note": ""
  },
  {
   "property": "C43",
   "status": "proved",
   "theorems": [
    "Verif.SP.C43_pairs",
    "Verif.SP.C43_intval_bits",
    "Verif.SP.C43_intval_injective"
   ],
   "note": ""
  },
  {
   "property": "C44",
   "status": "proved",
   "theorems": [
    "Verif.SP.C44_merge_pair",
    "Verif.SP.C44_history",
    "Verif.SP.C44_label_element",
    "Verif.SP.C44_label_block",
    "Verif.SP.C44_outdated_blocks",
    "Verif.SP.C44_forgotten_labels",
    "Verif.SP.C44_label_all",
    "Verif.SP.C44_label_whole",
    "Verif.SP.C44_block_from_element"
   ],
   "note": ""
  },
  {
   "property": "C45",
   "status": "proved",
   "theorems": [
    "Verif.SPC.C45_consequences",
    "Verif.SPC.C45_accepted",
    "Verif.SPC.C45_get_comp"
   ],
   "note": ""
  },
  {
   "property": "C46",
   "status": "proved",
   "theorems": [
    "Verif.SPC.C46_no_self_complement",
    "Verif.SPC.C46_same_argument",
    "Verif.SPC.C46_set_equal_same_argument"
   ],
   "note": ""
  },
  {
   "property": "C47",
   "status": "proved",
   "theorems": [
    "Verif.SPC.C47_int_matches"
   ],
   "note": ""
  },
  {
   "property": "C48",
   "status": "proved",
   "theorems": [
    "Verif.BF.C48_values",
    "Verif.BF.C48_atoms",
    "Verif.BF.C48_equality",
    "Verif.BF.C48_constant"
   ],
   "note": ""
  },
  {
   "property": "C49",
   "status": "proved",
   "theorems": [
    "Verif.BF.C49_operators",
    "Verif.BF.C49_laws"
   ],
   "note": ""
  },
  {
   "property": "C50",
   "status": "proved",
   "theorems": [
    "Verif.BF.C50_twin",
    "Verif.BF.C50_linear",
    "Verif.BF.C50_zhe",
    "Verif.BF.C50_zhe_index",
    "Verif.BF.C50_zhe_negative",
    "Verif.BF.C50_twin_integer",
    "Verif.BF.C50_twin_vector",
    "Verif.BF.C50_twin_inflated",
    "Verif.BF.C50_zhe_inflated"
   ],
   "note": "intval_to_arity is modelled with an exact logarithm."
  },
  {
   "property": "C51",
   "status": "proved",
   "theorems": [
    "Verif.BF.C51_tt",
    "Verif.BF.C51_tt_atoms",
    "Verif.BF.C51_rebuild"
   ],
   "note": ""
  },
  {
   "property": "C52",
   "status": "proved",
   "theorems": [
    "Verif.BF.C52_reverse",
    "Verif.BF.C52_involutions",
    "Verif.BF.C52_quadrant"
   ],
   "note": ""
  },
  {
   "property": "C53",
   "status": "proved",
   "theorems": [
    "Verif.BF.C53_order",
    "Verif.BF.C53_partial_order"
   ],
   "note": ""
  },
  {
   "property": "C54",
   "status": "proved",
   "theorems": [
    "Verif.P.C54_right_rank_lex",
    "Verif.P.C54_right_rank_not_injective"
   ],
   "note": ""
  },
  {
   "property": "C55",
   "status": "proved",
   "theorems": [
    "Verif.P.C55_left_rank_order"
   ],
   "note": ""
  },
  {
   "property": "C56",
   "status": "proved",
   "theorems": [
    "Verif.A.C56_inventory_dict"
   ],
   "note": ""
  },
  {
   "property": "C57",
   "status": "proved",
   "theorems": [
    "Verif.BV.C57_reverse",
    "Verif.BV.C57_flip_bit",
    "Verif.BV.C57_flip_bit_error",
    "Verif.BV.C57_add",
    "Verif.BV.C57_changes",
    "Verif.BV.C57_pretty_format",
    "Verif.BV.C57_pretty"
   ],
   "note": ""
  },
  {
   "property": "C58",
   "status": "proved",
   "theorems": [
    "Verif.SP.C58_length_attribute",
    "Verif.SP.C58_elements",
    "Verif.SP.C58_length",
    "Verif.SP.C58_range",
    "Verif.SP.C58_default"
   ],
   "note": ""
  },
  {
   "property": "C59",
   "status": "proved",
   "theorems": [
    "Verif.SP.C59_refine",
    "Verif.SP.C59_wrong_number_of_labels"
   ],
   "note": ""
  },
  {
   "property": "C60",
   "status": "proved",
   "theorems": [
    "Verif.SPC.C60_constructor",
    "Verif.SPC.C60_no_conclusions",
    "Verif.SPC.C60_self_pair",
    "Verif.SPC.C60_without_pairs"
   ],
   "note": ""
  },
  {
   "property": "C61",
   "status": "proved",
   "theorems": [
    "Verif.SPC.C61_related",
    "Verif.SPC.C61_affected",
    "Verif.SPC.C61_number_of_related_blocks",
    "Verif.SPC.C61_block",
    "Verif.SPC.C61_all_complement_pairs",
    "Verif.SPC.C61_equality"
   ],
   "note": ""
  },
  {
   "property": "C62",
   "status": "proved",
   "theorems": [
    "Verif.SG.C62_sequence_string",
    "Verif.SG.C62_str",
    "Verif.SG.C62_equals_perm",
    "Verif.SG.C62_flags"
   ],
   "note": ""
  },
  {
   "property": "C63",
   "status": "proved",
   "theorems": [
    "Verif.BF.C63_simple_gens"
   ],
   "note": ""
  },
  {
   "property": "C64",
   "status": "proved",
   "theorems": [
    "Verif.BF.C64_formats",
    "Verif.BF.C64_accepts",
    "Verif.BF.C64_order_of_digits",
    "Verif.BF.C64_with_atoms",
    "Verif.BF.C64_without_atoms",
    "Verif.BF.C64_integer_errors",
    "Verif.BF.C64_type_errors"
   ],
   "note": ""
  },
  {
   "property": "C65",
   "status": "proved",
   "theorems": [
    "Verif.BF.C65_hangs_iff",
    "Verif.BF.C65_combo_error"
   ],
   "note": ""
  },
  {
   "property": "C66",
   "status": "proved",
   "theorems": [
    "Verif.BF.C66_is_inflated",
    "Verif.BF.C66_deflated",
    "Verif.BF.C66_skip",
    "Verif.BF.C66_skip_no_atoms",
    "Verif.BF.C66_inflated_differs",
    "Verif.BF.C66_equality",
    "Verif.BF.C66_inflated_ne"
   ],
   "note": ""
  },
  {
   "property": "C67",
   "status": "proved",
   "theorems": [
    "Verif.BF.C67_multi",
    "Verif.BF.C67_atom"
   ],
   "note": ""
  },
  {
   "property": "C68",
   "status": "proved",
   "theorems": [
    "Verif.BF.C68_combo",
    "Verif.BF.C68_arity",
    "Verif.BF.C68_atoms",
    "Verif.BF.C68_too_large",
    "Verif.BF.C68_order_of_atoms",
    "Verif.BF.C68_negative"
   ],
   "note": ""
  },
  {
   "property": "C69",
   "status": "proved",
   "theorems": [
    "Verif.BF.C69_val",
    "Verif.BF.C69_val_binvs",
    "Verif.BF.C69_apply",
    "Verif.BF.C69_vals",
    "Verif.BF.C69_val_binvs_lengths"
   ],
   "note": ""
  },
  {
   "property": "C70",
   "status": "proved",
   "theorems": [
    "Verif.BF.C70_action",
    "Verif.BF.C70_composition",
    "Verif.BF.C70_neutral",
    "Verif.BF.C70_inverse",
    "Verif.BF.C70_perm",
    "Verif.BF.C70_list"
   ],
   "note": ""
  },
  {
   "property": "C71",
   "status": "proved",
   "theorems": [
    "Verif.BF.C71_spectrum",
    "Verif.BF.C71_parseval",
    "Verif.BF.C71_rebuild",
    "Verif.BF.C71_accepts",
    "Verif.BF.C71_filled",
    "Verif.BF.C71_empty",
    "Verif.BF.C71_complement"
   ],
   "note": "sympy fwht/ifwht are modelled by their known algorithm."
  },
  {
   "property": "C72",
   "status": "proved",
   "theorems": [
    "Verif.BF.C72_index_to_noble",
    "Verif.BF.C72_noble_to_index",
    "Verif.BF.C72_arity_zero",
    "Verif.BF.C72_is_noble",
    "Verif.BF.C72_quadrant",
    "Verif.BF.C72_royal",
    "Verif.BF.C72_rejected",
    "Verif.BF.C72_inflated",
    "Verif.BF.C72_inflated_twin"
   ],
   "note": ""
  },
  {
   "property": "C73",
   "status": "proved",
   "theorems": [
    "Verif.BF.C73_foibles",
    "Verif.BF.C73_weight",
    "Verif.BF.C73_twin",
    "Verif.BF.C73_rejected"
   ],
   "note": ""
  },
  {
   "property": "C74",
   "status": "proved",
   "theorems": [
    "Verif.BF.C74_patron",
    "Verif.BF.C74_patron_noble",
    "Verif.BF.C74_patron_index",
    "Verif.BF.C74_rejected",
    "Verif.BF.C74_leader",
    "Verif.BF.C74_leader_rejected"
   ],
   "note": ""
  },
  {
   "property": "C75",
   "status": "proved",
   "theorems": [
    "Verif.BF.C75_consul",
    "Verif.BF.C75_consul_args",
    "Verif.BF.C75_consul_slow",
    "Verif.BF.C75_zhe_to_prefect",
    "Verif.BF.C75_prefect",
    "Verif.BF.C75_exposet"
   ],
   "note": ""
  },
  {
   "property": "C76",
   "status": "proved",
   "theorems": [
    "Verif.BF.C76_filtrate",
    "Verif.BF.C76_any_order",
    "Verif.BF.C76_errors",
    "Verif.BF.C76_all_none",
    "Verif.BF.C76_twice",
    "Verif.BF.C76_wrong_order"
   ],
   "note": ""
  },
  {
   "property": "C77",
   "status": "proved",
   "theorems": [
    "Verif.BF.C77_pairs",
    "Verif.BF.C77_pair_ascending",
    "Verif.BF.C77_pair_descending",
    "Verif.BF.C77_pair_wrong",
    "Verif.BF.C77_pair_errors",
    "Verif.BF.C77_relations",
    "Verif.BF.C77_relation_errors",
    "Verif.BF.C77_crossing_atoms"
   ],
   "note": ""
  },
  {
   "property": "C78",
   "status": "proved",
   "theorems": [
    "Verif.BF.C78_layers",
    "Verif.BF.C78_places",
    "Verif.BF.C78_layered_tt",
    "Verif.BF.C78_symmetric",
    "Verif.BF.C78_symmetric_exchange"
   ],
   "note": ""
  },
  {
   "property": "C79",
   "status": "proved",
   "theorems": [
    "Verif.BF.C79_coordinates",
    "Verif.BF.C79_coordinates_rest",
    "Verif.BF.C79_roundtrip",
    "Verif.BF.C79_from_coordinates",
    "Verif.BF.C79_roundtrip_zero",
    "Verif.BF.C79_to_tt_errors",
    "Verif.BF.C79_solid",
    "Verif.BF.C79_solid_errors",
    "Verif.BF.C79_to_index",
    "Verif.BF.C79_index_is_rank",
    "Verif.BF.C79_index_zero"
   ],
   "note": ""
  },
  {
   "property": "C80",
   "status": "proved",
   "theorems": [
    "Verif.BF.C80_linear",
    "Verif.BF.C80_linear_atoms",
    "Verif.BF.C80_linear_affine",
    "Verif.BF.C80_weight_fract",
    "Verif.BF.C80_value_fract",
    "Verif.BF.C80_value_order",
    "Verif.BF.C80_value_injective",
    "Verif.BF.C80_complement",
    "Verif.BF.C80_distances",
    "Verif.BF.C80_distances_spectrum"
   ],
   "note": ""
  },
  {
   "property": "C81",
   "status": "proved",
   "theorems": [
    "Verif.BF.C81_is_root",
    "Verif.BF.C81_root_boolf",
    "Verif.BF.C81_same_root",
    "Verif.BF.C81_fullspots",
    "Verif.BF.C81_spread_vector",
    "Verif.BF.C81_inflated_fullspots",
    "Verif.BF.C81_atomvals_integer",
    "Verif.BF.C81_root_boolf_inflated"
   ],
   "note": ""
  },
  {
   "property": "C82",
   "status": "proved",
   "theorems": [
    "Verif.BF.C82_splits",
    "Verif.BF.C82_overlap_counts",
    "Verif.BF.C82_three_overlaps",
    "Verif.BF.C82_equal",
    "Verif.BF.C82_onesided",
    "Verif.BF.C82_is_universe",
    "Verif.BF.C82_onesided_inflated"
   ],
   "note": ""
  },
  {
   "property": "C83",
   "status": "proved",
   "theorems": [
    "Verif.BF.C83_bloat",
    "Verif.BF.C83_blot",
    "Verif.BF.C83_blight",
    "Verif.BF.C83_bloatless_blotless",
    "Verif.BF.C83_bloat_boolf",
    "Verif.BF.C83_blot_boolf",
    "Verif.BF.C83_blight_boolf"
   ],
   "note": ""
  },
  {
   "property": "C84",
   "status": "proved",
   "theorems": [
    "Verif.BF.C84_representatives",
    "Verif.BF.C84_blocks",
    "Verif.BF.C84_bloatless_spotint",
    "Verif.BF.C84_spotint_of_fullspots",
    "Verif.BF.C84_spotint_constant",
    "Verif.BF.C84_bloatless_boolf",
    "Verif.BF.C84_intersection",
    "Verif.BF.C84_is_bloatless"
   ],
   "note": ""
  },
  {
   "property": "C85",
   "status": "proved",
   "theorems": [
    "Verif.BF.C85_blightless_boolf",
    "Verif.BF.C85_atomkeys",
    "Verif.BF.C85_intersection",
    "Verif.BF.C85_is_blightless",
    "Verif.BF.C85_blightless_spotint",
    "Verif.BF.C85_spotint_of_fullspots",
    "Verif.BF.C85_spotint_constant"
   ],
   "note": ""
  },
  {
   "property": "C86",
   "status": "proved",
   "theorems": [
    "Verif.BF.C86_splits_combined",
    "Verif.BF.C86_exceptions"
   ],
   "note": ""
  },
  {
   "property": "C87",
   "status": "proved",
   "theorems": [
    "Verif.BF.C87_gapless_boolf",
    "Verif.BF.C87_gapless_closure"
   ],
   "note": ""
  },
  {
   "property": "C88",
   "status": "proved",
   "theorems": [
    "Verif.BF.C88_bundles",
    "Verif.BF.C88_bundle_overlap_counts",
    "Verif.BF.C88_bundle_grid_partitions"
   ],
   "note": ""
  },
  {
   "property": "C89",
   "status": "proved",
   "theorems": [
    "Verif.BF.C89_layers",
    "Verif.BF.C89_by_weight",
    "Verif.BF.C89_weights",
    "Verif.BF.C89_links",
    "Verif.BF.C89_number_of_links"
   ],
   "note": ""
  },
  {
   "property": "C90",
   "status": "proved",
   "theorems": [
    "Verif.BF.C90_blightless",
    "Verif.BF.C90_hypersplits",
    "Verif.BF.C90_keys",
    "Verif.BF.C90_detailed",
    "Verif.BF.C90_potential_cores"
   ],
   "note": ""
  },
  {
   "property": "C91",
   "status": "proved",
   "theorems": [
    "Verif.BF.C91_hyperfission",
    "Verif.BF.C91_fissions",
    "Verif.BF.C91_single",
    "Verif.BF.C91_several",
    "Verif.BF.C91_weights",
    "Verif.BF.C91_layered"
   ],
   "note": ""
  },
  {
   "property": "C92",
   "status": "proved",
   "theorems": [
    "Verif.BF.C92_spectra",
    "Verif.BF.C92_single_spectra",
    "Verif.BF.C92_layered_abs",
    "Verif.BF.C92_labeled",
    "Verif.BF.C92_reunion",
    "Verif.BF.C92_single_constant"
   ],
   "note": ""
  },
  {
   "property": "C93",
   "status": "proved",
   "theorems": [
    "Verif.BF.C93_rev_colex_perms",
    "Verif.BF.C93_prefix"
   ],
   "note": ""
  },
  {
   "property": "C94",
   "status": "proved",
   "theorems": [
    "Verif.BF.C94_family",
    "Verif.BF.C94_members",
    "Verif.BF.C94_cosets",
    "Verif.BF.C94_closed"
   ],
   "note": ""
  },
  {
   "property": "C95",
   "status": "proved",
   "theorems": [
    "Verif.BF.C95_errors",
    "Verif.BF.C95_short",
    "Verif.BF.C95_long",
    "Verif.BF.C95_constant",
    "Verif.BF.C95_members",
    "Verif.BF.C95_abbreviation",
    "Verif.BF.C95_cosets"
   ],
   "note": ""
  },
  {
   "property": "C96",
   "status": "proved",
   "theorems": [
    "Verif.BF.C96_errors",
    "Verif.BF.C96_redundant",
    "Verif.BF.C96_abbreviated",
    "Verif.BF.C96_members",
    "Verif.BF.C96_constant",
    "Verif.BF.C96_constant_true",
    "Verif.BF.C96_constant_diverges",
    "Verif.BF.C96_abbreviation"
   ],
   "note": ""
  },
  {
   "property": "C97",
   "status": "proved",
   "theorems": [
    "Verif.BF.C97_partition",
    "Verif.BF.C97_twin",
    "Verif.BF.C97_twin_errors"
   ],
   "note": ""
  },
  {
   "property": "C98",
   "status": "proved",
   "theorems": [
    "Verif.BF.C98_coset",
    "Verif.BF.C98_errors"
   ],
   "note": ""
  },
  {
   "property": "C99",
   "status": "proved",
   "theorems": [
    "Verif.BF.C99_family_minrep",
    "Verif.BF.C99_same_family",
    "Verif.BF.C99_none"
   ],
   "note": ""
  },
  {
   "property": "C100",
   "status": "proved",
   "theorems": [
    "Verif.BF.C100_faction_minrep",
    "Verif.BF.C100_same_faction",
    "Verif.BF.C100_atoms"
   ],
   "note": ""
  },
  {
   "property": "C101",
   "status": "proved",
   "theorems": [
    "Verif.BF.C101_clan_minrep",
    "Verif.BF.C101_any_order",
    "Verif.BF.C101_same_clan",
    "Verif.BF.C101_atoms",
    "Verif.BF.C101_assertion"
   ],
   "note": ""
  },
  {
   "property": "C102",
   "status": "proved",
   "theorems": [
    "Verif.BF.C102_family_splinters",
    "Verif.BF.C102_errors"
   ],
   "note": ""
  },
  {
   "property": "C103",
   "status": "proved",
   "theorems": [
    "Verif.BF.C103_clan_factions",
    "Verif.BF.C103_constant",
    "Verif.BF.C103_errors"
   ],
   "note": ""
  },
  {
   "property": "C104",
   "status": "proved",
   "theorems": [
    "Verif.BF.C104_roundtrip",
    "Verif.BF.C104_str_inj",
    "Verif.BF.C104_lt",
    "Verif.BF.C104_comparisons",
    "Verif.BF.C104_inflated"
   ],
   "note": ""
  },
  {
   "property": "C105",
   "status": "proved",
   "theorems": [
    "Verif.BF.C105_clan_partitioned",
    "Verif.BF.C105_order",
    "Verif.BF.C105_errors",
    "Verif.BF.C105_not_root"
   ],
   "note": ""
  },
  {
   "property": "C106",
   "status": "proved",
   "theorems": [
    "Verif.BF.C106_symmetric_spots",
    "Verif.BF.C106_errors"
   ],
   "note": ""
  },
  {
   "property": "C107",
   "status": "proved",
   "theorems": [
    "Verif.BF.C107_perm_symmetry_partition",
    "Verif.BF.C107_errors"
   ],
   "note": ""
  },
  {
   "property": "C108",
   "status": "proved",
   "theorems": [
    "Verif.BF.C108_family_malerep",
    "Verif.BF.C108_same_family",
    "Verif.BF.C108_errors"
   ],
   "note": ""
  },
  {
   "property": "C109",
   "status": "proved",
   "theorems": [
    "Verif.BF.C109_family_is_self_complementary"
   ],
   "note": ""
  },
  {
   "property": "C110",
   "status": "proved",
   "theorems": [
    "Verif.A.C110_sort_together",
    "Verif.A.C110_errors"
   ],
   "note": ""
  },
  {
   "property": "C111",
   "status": "proved",
   "theorems": [
    "Verif.A.C111_sort_rows_together",
    "Verif.A.C111_sort_cols_together",
    "Verif.A.C111_errors"
   ],
   "note": ""
  },
  {
   "property": "C112",
   "status": "proved",
   "theorems": [
    "Verif.A.C112_multi_lcm"
   ],
   "note": ""
  },
  {
   "property": "C113",
   "status": "proved",
   "theorems": [
    "Verif.BF.C113_index_triples",
    "Verif.BF.C113_order",
    "Verif.BF.C113_errors"
   ],
   "note": ""
  },
  {
   "property": "C114",
   "status": "proved",
   "theorems": [
    "Verif.BF.C114_partitions"
   ],
   "note": ""
  },
  {
   "property": "C115",
   "status": "proved",
   "theorems": [
    "Verif.BF.C115_weights_sizes"
   ],
   "note": ""
  },
  {
   "property": "C116",
   "status": "proved",
   "theorems": [
    "Verif.BF.C116_splinters"
   ],
   "note": ""
  },
  {
   "property": "C117",
   "status": "proved",
   "theorems": [
    "Verif.BF.C117_collection"
   ],
   "note": ""
  },
  {
   "property": "C118",
   "status": "proved",
   "theorems": [
    "Verif.BF.C118_segment_to_adjacent_spots",
    "Verif.BF.C118_error"
   ],
   "note": ""
  },
  {
   "property": "C119",
   "status": "proved",
   "theorems": [
    "Verif.BF.C119_spots_links"
   ],
   "note": ""
  },
  {
   "property": "C120",
   "status": "proved",
   "theorems": [
    "Verif.BF.C120_find_segments"
   ],
   "note": ""
  },
  {
   "property": "C121",
   "status": "proved",
   "theorems": [
    "Verif.A.C121_with_indirect_edges",
    "Verif.A.C121_direct_edges",
    "Verif.A.C121_paths",
    "Verif.A.C121_empty"
   ],
   "note": ""
  },
  {
   "property": "C122",
   "status": "proved",
   "theorems": [
    "Verif.A.C122_find_integer_partitions",
    "Verif.A.C122_not_positive"
   ],
   "note": ""
  },
  {
   "property": "C123",
   "status": "proved",
   "theorems": [
    "Verif.A.C123_hypercube_edges",
    "Verif.A.C123_negative"
   ],
   "note": ""
  },
  {
   "property": "C124",
   "status": "proved",
   "theorems": [
    "Verif.A.C124_perm",
    "Verif.A.C124_order",
    "Verif.A.C124_binary"
   ],
   "note": ""
  },
  {
   "property": "C125",
   "status": "proved",
   "theorems": [
    "Verif.A.C125_powerset"
   ],
   "note": ""
  },
  {
   "property": "C126",
   "status": "proved",
   "theorems": [
    "Verif.A.C126_result",
    "Verif.A.C126_error"
   ],
   "note": ""
  },
  {
   "property": "C127",
   "status": "proved",
   "theorems": [
    "Verif.A.C127_is_multisubset",
    "Verif.A.C127_multiset_to_distri",
    "Verif.A.C127_distri_le"
   ],
   "note": ""
  },
  {
   "property": "C128",
   "status": "proved",
   "theorems": [
    "Verif.A.C128_make_transposition",
    "Verif.A.C128_involution",
    "Verif.A.C128_errors",
    "Verif.A.C128_negative",
    "Verif.A.C128_swap_matrix_rows",
    "Verif.A.C128_swap_errors"
   ],
   "note": ""
  },
  {
   "property": "C129",
   "status": "proved",
   "theorems": [
    "Verif.A.C129_binom",
    "Verif.A.C129_error"
   ],
   "note": ""
  },
  {
   "property": "C130",
   "status": "proved",
   "theorems": [
    "Verif.A.C130_key_tuples",
    "Verif.A.C130_errors"
   ],
   "note": ""
  },
  {
   "property": "C131",
   "status": "proved",
   "theorems": [
    "Verif.A.C131_flat",
    "Verif.A.C131_identity",
    "Verif.A.C131_brackets",
    "Verif.A.C131_idempotent"
   ],
   "note": ""
  },
  {
   "property": "C132",
   "status": "proved",
   "theorems": [
    "Verif.BF.C132_degree",
    "Verif.BF.C132_size",
    "Verif.BF.C132_errors"
   ],
   "note": ""
  },
  {
   "property": "C133",
   "status": "proved",
   "theorems": [
    "Verif.BF.C133_walsh",
    "Verif.BF.C133_leader_quadrant",
    "Verif.BF.C133_accepts",
    "Verif.BF.C133_make_linear_binv"
   ],
   "note": ""
  },
  {
   "property": "C134",
   "status": "proved",
   "theorems": [
    "Verif.A.C134_vectors",
    "Verif.A.C134_matrix",
    "Verif.A.C134_symmetric",
    "Verif.A.C134_negative"
   ],
   "note": ""
  },
  {
   "property": "C135",
   "status": "proved",
   "theorems": [
    "Verif.SG.C135_signed",
    "Verif.SG.C135_period",
    "Verif.SG.C135_product",
    "Verif.SG.C135_inverse",
    "Verif.SG.C135_injective",
    "Verif.SG.C135_perm",
    "Verif.SG.C135_unsigned",
    "Verif.SG.C135_periodic_product"
   ],
   "note": ""
  },
  {
   "property": "C136",
   "status": "proved",
   "theorems": [
    "Verif.SG.C136_atompattern",
    "Verif.SG.C136_finite_inverse",
    "Verif.SG.C136_other_length",
    "Verif.SG.C136_constructor",
    "Verif.SG.C136_round_trip",
    "Verif.SG.C136_rejected"
   ],
   "note": ""
  },
  {
   "property": "C137",
   "status": "proved",
   "theorems": [
    "Verif.BF.C137_prototype",
    "Verif.BF.C137_least"
   ],
   "note": ""
  },
  {
   "property": "C138",
   "status": "proved",
   "theorems": [
    "Verif.BF.C138_king",
    "Verif.BF.C138_king_index",
    "Verif.BF.C138_same_king",
    "Verif.BF.C138_rejected",
    "Verif.BF.C138_patron"
   ],
   "note": ""
  },
  {
   "property": "C139",
   "status": "proved",
   "theorems": [
    "Verif.BF.C139_colors",
    "Verif.BF.C139_error",
    "Verif.BF.C139_fits",
    "Verif.BF.C139_list",
    "Verif.BF.C139_perm",
    "Verif.BF.C139_composition",
    "Verif.BF.C139_neutral",
    "Verif.BF.C139_function"
   ],
   "note": ""
  },
  {
   "property": "C140",
   "status": "proved",
   "theorems": [
    "Verif.BF.C140_greater",
    "Verif.BF.C140_total",
    "Verif.BF.C140_sort_each_layer"
   ],
   "note": ""
  },
  {
   "property": "C141",
   "status": "proved",
   "theorems": [
    "Verif.BF.C141_swan",
    "Verif.BF.C141_order",
    "Verif.BF.C141_error"
   ],
   "note": ""
  },
  {
   "property": "C142",
   "status": "proved",
   "theorems": [
    "Verif.BF.C142_rcv",
    "Verif.BF.C142_length",
    "Verif.BF.C142_negative",
    "Verif.BF.C142_insert"
   ],
   "note": ""
  },
  {
   "property": "C143",
   "status": "proved",
   "theorems": [
    "Verif.BF.C143_perm",
    "Verif.BF.C143_perm_short",
    "Verif.BF.C143_perm_errors",
    "Verif.BF.C143_perm_boolf",
    "Verif.BF.C143_readme",
    "Verif.BF.C143_neg",
    "Verif.BF.C143_neg_boolf",
    "Verif.BF.C143_neg_types"
   ],
   "note": ""
  },
  {
   "property": "C144",
   "status": "proved",
   "theorems": [
    "Verif.BF.C144_sigvar",
    "Verif.BF.C144_errors",
    "Verif.BF.C144_boolf"
   ],
   "note": ""
  },
  {
   "property": "C145",
   "status": "proved",
   "theorems": [
    "Verif.BF.C145_matrix",
    "Verif.BF.C145_clan"
   ],
   "note": ""
  },
  {
   "property": "C146",
   "status": "proved",
   "theorems": [
    "Verif.BF.C146_variants",
    "Verif.BF.C146_clan"
   ],
   "note": ""
  },
  {
   "property": "C147",
   "status": "proved",
   "theorems": [
    "Verif.SP.C147_inventory_list",
    "Verif.SP.C147_inventory_dict",
    "Verif.SP.C147_binv",
    "Verif.SP.C147_binv_complement"
   ],
   "note": ""
  },
  {
   "property": "C148",
   "status": "proved",
   "theorems": [
    "Verif.P.C148_slice_to_range",
    "Verif.P.C148_perm",
    "Verif.W.C148_vector",
    "Verif.W.C148_walsh_perm"
   ],
   "note": ""
  },
  {
   "property": "C149",
   "status": "proved",
   "theorems": [
    "Verif.BF.C149_pairs",
    "Verif.BF.C149_mismatch",
    "Verif.BF.C149_alphabet",
    "Verif.BF.C149_default",
    "Verif.BF.C149_repeated_names"
   ],
   "note": ""
  },
  {
   "property": "C150",
   "status": "proved",
   "theorems": [
    "Verif.BF.C150_bundles",
    "Verif.BF.C150_fullspot_atoms",
    "Verif.BF.C150_fullspotlinks",
    "Verif.BF.C150_hypersplits",
    "Verif.BF.C150_cores",
    "Verif.BF.C150_numbers",
    "Verif.BF.C150_default",
    "Verif.BF.C150_mismatch"
   ],
   "note": ""
  },
  {
   "property": "C151",
   "status": "proved",
   "theorems": [
    "Verif.A.C151_bitwise",
    "Verif.A.C151_bitwise_order",
    "Verif.A.C151_bitwise_few",
    "Verif.A.C151_subdict",
    "Verif.A.C151_subdict_without_fresh",
    "Verif.A.C151_regular_dict",
    "Verif.A.C151_regular_unchanged",
    "Verif.A.C151_signs_integers",
    "Verif.A.C151_signs_booleans",
    "Verif.A.C151_signs_places"
   ],
   "note": ""
  },
  {
   "property": "C152",
   "status": "proved",
   "theorems": [
    "Verif.SP.C152_str",
    "Verif.SP.C152_arguments",
    "Verif.SPC.C152_comp_str",
    "Verif.SPC.C152_comp_arguments"
   ],
   "note": ""
  },
  {
   "property": "C153",
   "status": "proved",
   "theorems": [
    "Verif.W.C153_moved",
    "Verif.W.C153_count",
    "Verif.W.C153_inverse"
   ],
   "note": ""
  },
  {
   "property": "C154",
   "status": "proved",
   "theorems": [
    "Verif.BF.C154_history",
    "Verif.BF.C154_set"
   ],
   "note": ""
  },
  {
   "property": "C155",
   "status": "proved",
   "theorems": [
    "Verif.SP.C155_refine_labels",
    "Verif.SP.C155_refine_labels_errors",
    "Verif.SP.C155_unsorted_block"
   ],
   "note": ""
  },
  {
   "property": "C156",
   "status": "proved",
   "theorems": [
    "Verif.BF.C156_repeat_sequence",
    "Verif.BF.C156_entry_counts",
    "Verif.BF.C156_atom_indices",
    "Verif.BF.C156_atom_indices_errors",
    "Verif.BF.C156_walsh_matrix",
    "Verif.BF.C156_sierpinski_exposet",
    "Verif.BF.C156_sierpinski_intval",
    "Verif.BF.C156_sierpinski_errors",
    "Verif.BF.C156_ternary_string",
    "Verif.BF.C156_matrix_to_vector",
    "Verif.BF.C156_vector_to_matrix",
    "Verif.BF.C156_intval_to_arity",
    "Verif.BF.C156_intval_to_tt_length"
   ],
   "note": ""
  },
  {
   "property": "C157",
   "status": "proved",
   "theorems": [
    "Verif.Svg.C157_area",
    "Verif.Svg.C157_boundary",
    "Verif.Svg.C157_corners",
    "Verif.Svg.C157_string"
   ],
   "note": ""
  },
  {
   "property": "C158",
   "status": "proved",
   "theorems": [
    "Verif.BF.C158_table",
    "Verif.BF.C158_base",
    "Verif.BF.C158_order",
    "Verif.BF.C158_errors"
   ],
   "note": ""
  },
  {
   "property": "C159",
   "status": "proved",
   "theorems": [
    "Verif.BF.C159_row",
    "Verif.BF.C159_errors",
    "Verif.BF.C159_iff"
   ],
   "note": ""
  },
  {
   "property": "C160",
   "status": "proved",
   "theorems": [
    "Verif.BF.C160_print",
    "Verif.BF.C160_names",
    "Verif.BF.C160_string"
   ],
   "note": ""
  },
  {
   "property": "C161",
   "status": "proved",
   "theorems": [
    "Verif.BF.C161_created",
    "Verif.BF.C161_loop",
    "Verif.BF.C161_blight"
   ],
   "note": ""
  },
  {
   "property": "C162",
   "status": "proved",
   "theorems": [
    "Verif.BF.C162_single",
    "Verif.BF.C162_places",
    "Verif.BF.C162_many",
    "Verif.BF.C162_errors"
   ],
   "note": ""
  },
  {
   "property": "C163",
   "status": "proved",
   "theorems": [
    "Verif.Fl.C163_accurate",
    "Verif.Fl.C163_correct",
    "Verif.Fl.C163_deviations",
    "Verif.Fl.C163_models",
    "Verif.Fl.C163_collision",
    "Verif.Fl.C163_binv",
    "Verif.Fl.C163_arity"
   ],
   "note": ""
  },
  {
   "property": "C164",
   "status": "proved",
   "theorems": [
    "Verif.W.C164_inverse",
    "Verif.W.C164_not_integral",
    "Verif.W.C164_bound"
   ],
   "note": ""
  },
  {
   "property": "C165",
   "status": "proved",
   "theorems": [
    "Verif.P.C165_order",
    "Verif.P.C165_negative"
   ],
   "note": ""
  },
  {
   "property": "C166",
   "status": "proved",
   "theorems": [
    "Verif.Fl.C166_binv",
    "Verif.Fl.C166_lengthError",
    "Verif.Fl.C166_table",
    "Verif.Fl.C166_table_lengthError",
    "Verif.Fl.C166_zhe",
    "Verif.Fl.C166_zhe_lengthError",
    "Verif.Fl.C166_disjunction"
   ],
   "note": ""
  },
  {
   "property": "C167",
   "status": "proved",
   "theorems": [
    "Verif.BF.C167_signed_permutation",
    "Verif.BF.C167_clan",
    "Verif.BF.C167_clan_reduced",
    "Verif.BF.C167_same_minrep",
    "Verif.BF.C167_bloatless_not_moved"
   ],
   "note": ""
  },
  {
   "property": "C168",
   "status": "proved",
   "theorems": [
    "Verif.Cay.C168_permutations",
    "Verif.Cay.C168_signed",
    "Verif.Cay.C168_sign_parts",
    "Verif.Cay.C168_rows_and_columns"
   ],
   "note": ""
  },
  {
   "property": "C169",
   "status": "proved",
   "theorems": [
    "Verif.BF.C169_family",
    "Verif.BF.C169_faction",
    "Verif.BF.C169_clan",
    "Verif.BF.C169_abbreviation"
   ],
   "note": ""
  },
  {
   "property": "C170",
   "status": "proved",
   "theorems": [
    "Verif.P.C170_parity",
    "Verif.P.C170_conjugate",
    "Verif.P.C170_conjugate_exists",
    "Verif.P.C170_inverse"
   ],
   "note": ""
  },
  {
   "property": "C171",
   "status": "proved",
   "theorems": [
    "Verif.SG.C171_determinant",
    "Verif.SG.C171_product",
    "Verif.SG.C171_inverse"
   ],
   "note": ""
  },
  {
   "property": "C172",
   "status": "proved",
   "theorems": [
    "Verif.W.C172_apply",
    "Verif.BF.C172_spectrum"
   ],
   "note": ""
  },
  {
   "property": "C173",
   "status": "proved",
   "theorems": [
    "Verif.P.C173_product",
    "Verif.P.C173_product_periodic",
    "Verif.P.C173_power",
    "Verif.P.C173_from_partition"
   ],
   "note": ""
  },
  {
   "property": "C174",
   "status": "proved",
   "theorems": [
    "Verif.P.C174_neutral",
    "Verif.P.C174_inverse",
    "Verif.P.C174_product",
    "Verif.P.C174_adjacent",
    "Verif.P.C174_length"
   ],
   "note": ""
  },
  {
   "property": "C175",
   "status": "proved",
   "theorems": [
    "Verif.BF.C175_distance",
    "Verif.BF.C175_weight",
    "Verif.BF.C175_product",
    "Verif.BF.C175_twin"
   ],
   "note": ""
  },
  {
   "property": "C176",
   "status": "proved",
   "theorems": [
    "Verif.BF.C176_shift",
    "Verif.BF.C176_squares",
    "Verif.BF.C176_covering",
    "Verif.BF.C176_complement",
    "Verif.BF.C176_determined"
   ],
   "note": ""
  },
  {
   "property": "C177",
   "status": "proved",
   "theorems": [
    "Verif.BF.C177_family",
    "Verif.BF.C177_male",
    "Verif.BF.C177_size"
   ],
   "note": ""
  },
  {
   "property": "C178",
   "status": "proved",
   "theorems": [
    "Verif.SP.C178_semimodular",
    "Verif.SP.C178_between",
    "Verif.SP.C178_le",
    "Verif.SP.C178_merge"
   ],
   "note": ""
  },
  {
   "property": "C179",
   "status": "proved",
   "theorems": [
    "Verif.P.C179_rank",
    "Verif.P.C179_product",
    "Verif.P.C179_transposition",
    "Verif.P.C179_length"
   ],
   "note": ""
  },
  {
   "property": "C180",
   "status": "proved",
   "theorems": [
    "Verif.BF.C180_distances",
    "Verif.BF.C180_spectrum"
   ],
   "note": ""
  },
  {
   "property": "C181",
   "status": "proved",
   "theorems": [
    "Verif.BF.C181_index",
    "Verif.BF.C181_unique",
    "Verif.BF.C181_same"
   ],
   "note": ""
  },
  {
   "property": "C182",
   "status": "proved",
   "theorems": [
    "Verif.BF.C182_arity",
    "Verif.BF.C182_xor",
    "Verif.BF.C182_twin",
    "Verif.BF.C182_linear",
    "Verif.BF.C182_idempotent"
   ],
   "note": ""
  },
  {
   "property": "C183",
   "status": "proved",
   "theorems": [
    "Verif.BF.C183_operators",
    "Verif.BF.C183_action",
    "Verif.BF.C183_walsh",
    "Verif.BF.C183_linear"
   ],
   "note": ""
  },
  {
   "property": "C184",
   "status": "proved",
   "theorems": [
    "Verif.P.C184_power",
    "Verif.P.C184_swap",
    "Verif.P.C184_commute",
    "Verif.P.C184_parity"
   ],
   "note": ""
  },
  {
   "property": "C185",
   "status": "proved",
   "theorems": [
    "Verif.BF.C185_changes",
    "Verif.BF.C185_bent",
    "Verif.BF.C185_odd",
    "Verif.BF.C185_weight"
   ],
   "note": ""
  },
  {
   "property": "C186",
   "status": "proved",
   "theorems": [
    "Verif.BF.C186_measure",
    "Verif.BF.C186_monotone",
    "Verif.BF.C186_metric",
    "Verif.BF.C186_lattice"
   ],
   "note": ""
  },
  {
   "property": "C187",
   "status": "proved",
   "theorems": [
    "Verif.BF.C187_braid",
    "Verif.BF.C187_order"
   ],
   "note": ""
  },
  {
   "property": "C188",
   "status": "proved",
   "theorems": [
    "Verif.W.C188_transpose_inverse",
    "Verif.W.C188_powers",
    "Verif.W.C188_finite_order"
   ],
   "note": ""
  },
  {
   "property": "C189",
   "status": "proved",
   "theorems": [
    "Verif.P.C189_left",
    "Verif.P.C189_right",
    "Verif.P.C189_rotate"
   ],
   "note": ""
  },
  {
   "property": "C190",
   "status": "proved",
   "theorems": [
    "Verif.SP.C190_meet",
    "Verif.SP.C190_le",
    "Verif.SP.C190_join",
    "Verif.SP.C190_bound"
   ],
   "note": ""
  },
  {
   "property": "C191",
   "status": "proved",
   "theorems": [
    "Verif.SG.C191_inverse",
    "Verif.SG.C191_product",
    "Verif.SG.C191_factors"
   ],
   "note": ""
  },
  {
   "property": "C192",
   "status": "proved",
   "theorems": [
    "Verif.W.C192_accepted",
    "Verif.W.C192_orthogonal"
   ],
   "note": ""
  },
  {
   "property": "C193",
   "status": "proved",
   "theorems": [
    "Verif.P.C193_leading",
    "Verif.P.C193_bound",
    "Verif.P.C193_enumerates"
   ],
   "note": ""
  },
  {
   "property": "C194",
   "status": "proved",
   "theorems": [
    "Verif.SG.C194_length",
    "Verif.SG.C194_enumerates"
   ],
   "note": ""
  },
  {
   "property": "C195",
   "status": "proved",
   "theorems": [
    "Verif.BF.C195_atoms",
    "Verif.BF.C195_bound"
   ],
   "note": ""
  },
  {
   "property": "C196",
   "status": "proved",
   "theorems": [
    "Verif.BF.C196_table",
    "Verif.BF.C196_zhe"
   ],
   "note": ""
  },
  {
   "property": "C197",
   "status": "proved",
   "theorems": [
    "Verif.BF.C197_table",
    "Verif.BF.C197_zhe",
    "Verif.BF.C197_group"
   ],
   "note": ""
  },
  {
   "property": "C198",
   "status": "proved",
   "theorems": [
    "Verif.BF.C198_symmetric"
   ],
   "note": ""
  }
 ]
}