# Axioms of the theorems of MANIFEST.json

Generated by `tools/axioms.py` with `#print axioms`.

## none

* `Ethos.Props.C10_hex_ambiguous`
* `Ethos.Props.C52_curry_injective`

## propext

* `Ethos.Props.C03_cover`
* `Ethos.Props.C07_canonical`
* `Ethos.Props.C10_hex_refuted`
* `Ethos.Props.C14_children`
* `Ethos.Props.C14_injective`
* `Ethos.Props.C14_nil_refuted`
* `Ethos.Props.C17_concat_refuted`
* `Ethos.Props.C17_diff_refuted`
* `Ethos.Props.C17_erase_refuted`
* `Ethos.Props.C17_rev_refuted`
* `Ethos.Props.C17_setof_refuted`
* `Ethos.Props.C40_reset_refuted`
* `Ethos.Props.C41_reset_refuted`
* `Ethos.Props.C42_attribute`
* `Ethos.Props.C42_conflict`
* `Ethos.Props.C42_literals`
* `Ethos.Props.C42_program`
* `Ethos.Props.C42_rules`
* `Ethos.Props.C73_unique`

## Quot.sound, propext

* `Ethos.Props.C01_unique`
* `Ethos.Props.C02_arith_injective`
* `Ethos.Props.C04_string_length`
* `Ethos.Props.C06_to_bin_value`
* `Ethos.Props.C08_reader_wf`
* `Ethos.Props.C14_isList`
* `Ethos.Props.C14_left`
* `Ethos.Props.C14_left_recognised`
* `Ethos.Props.C14_recognised`
* `Ethos.Props.C15_concat`
* `Ethos.Props.C15_cons`
* `Ethos.Props.C15_erase_all`
* `Ethos.Props.C15_find_none`
* `Ethos.Props.C15_find_some`
* `Ethos.Props.C15_len`
* `Ethos.Props.C15_rev`
* `Ethos.Props.C15_setof`
* `Ethos.Props.C16_diff`
* `Ethos.Props.C16_diff_mult`
* `Ethos.Props.C16_inter`
* `Ethos.Props.C16_inter_mult`
* `Ethos.Props.C17_concat_partial`
* `Ethos.Props.C17_cons_partial`
* `Ethos.Props.C17_erase_all_partial`
* `Ethos.Props.C17_len`
* `Ethos.Props.C17_nth_partial`
* `Ethos.Props.C17_rev_partial`
* `Ethos.Props.C18_non_list`
* `Ethos.Props.C18_singleton_elim`
* `Ethos.Props.C20_fails_dangling`
* `Ethos.Props.C20_fails_duplicate`
* `Ethos.Props.C20_fails_ub`
* `Ethos.Props.C20_leak`
* `Ethos.Props.C23_neighbours`
* `Ethos.Props.C23_pairs_count`
* `Ethos.Props.C30_not_run`
* `Ethos.Props.C40_refines`
* `Ethos.Props.C40_restore_partial`
* `Ethos.Props.C41_candidates_partial`
* `Ethos.Props.C42_recorded`
* `Ethos.Props.C43_canonical`
* `Ethos.Props.C43_reachable`
* `Ethos.Props.C77_accepts`
* `Ethos.Props.C77_arity`
* `Ethos.Props.C78_injective`
* `Ethos.Props.C78_state`
* `Ethos.Props.C81_unique`

## Classical.choice, Quot.sound, propext

* `Ethos.Props.C01_floor_refuted`
* `Ethos.Props.C01_zdiv_zmod`
* `Ethos.Props.C01_zero`
* `Ethos.Props.C02_add`
* `Ethos.Props.C02_gt`
* `Ethos.Props.C02_is_neg`
* `Ethos.Props.C02_mul`
* `Ethos.Props.C02_neg`
* `Ethos.Props.C02_no_mix`
* `Ethos.Props.C02_qdiv`
* `Ethos.Props.C03_add`
* `Ethos.Props.C03_and`
* `Ethos.Props.C03_concat_partial`
* `Ethos.Props.C03_concat_refuted`
* `Ethos.Props.C03_div`
* `Ethos.Props.C03_mul`
* `Ethos.Props.C03_neg`
* `Ethos.Props.C03_no_mix`
* `Ethos.Props.C03_not`
* `Ethos.Props.C03_or`
* `Ethos.Props.C03_rem`
* `Ethos.Props.C03_width`
* `Ethos.Props.C03_xor`
* `Ethos.Props.C04_bits_at_width`
* `Ethos.Props.C04_bits_partial`
* `Ethos.Props.C04_bits_refuted`
* `Ethos.Props.C04_string`
* `Ethos.Props.C05_find`
* `Ethos.Props.C05_strings_only`
* `Ethos.Props.C05_wraps`
* `Ethos.Props.C06_len`
* `Ethos.Props.C06_to_bin`
* `Ethos.Props.C06_to_bin_else`
* `Ethos.Props.C06_to_q`
* `Ethos.Props.C06_to_str_bin`
* `Ethos.Props.C06_to_str_code`
* `Ethos.Props.C06_to_str_dec`
* `Ethos.Props.C06_to_str_noncode`
* `Ethos.Props.C06_to_str_rat`
* `Ethos.Props.C06_to_str_refuted`
* `Ethos.Props.C06_to_str_str`
* `Ethos.Props.C06_to_z_bin`
* `Ethos.Props.C06_to_z_else`
* `Ethos.Props.C06_to_z_num`
* `Ethos.Props.C06_to_z_rat`
* `Ethos.Props.C06_to_z_str`
* `Ethos.Props.C07_closed`
* `Ethos.Props.C07_evaluate_wf`
* `Ethos.Props.C08_ascii`
* `Ethos.Props.C08_injective`
* `Ethos.Props.C08_quote_refuted`
* `Ethos.Props.C08_round_trip`
* `Ethos.Props.C08_token_partial`
* `Ethos.Props.C09_string`
* `Ethos.Props.C10_binary`
* `Ethos.Props.C10_hex_partial`
* `Ethos.Props.C10_normalize`
* `Ethos.Props.C11_eq_else`
* `Ethos.Props.C11_eq_values`
* `Ethos.Props.C11_is_eq`
* `Ethos.Props.C11_is_eq_open`
* `Ethos.Props.C11_is_ok`
* `Ethos.Props.C11_requires`
* `Ethos.Props.C11_requires_is_eq`
* `Ethos.Props.C12_is_bin`
* `Ethos.Props.C12_is_bool`
* `Ethos.Props.C12_is_q`
* `Ethos.Props.C12_is_str`
* `Ethos.Props.C12_is_z`
* `Ethos.Props.C13_cmp_derived_partial`
* `Ethos.Props.C13_fails_collision`
* `Ethos.Props.C13_hash_partial`
* `Ethos.Props.C13_irreflexive`
* `Ethos.Props.C13_op_else`
* `Ethos.Props.C13_op_hash_partial`
* `Ethos.Props.C13_op_irreflexive`
* `Ethos.Props.C13_op_total`
* `Ethos.Props.C13_op_transitive`
* `Ethos.Props.C13_stable`
* `Ethos.Props.C13_transitive`
* `Ethos.Props.C15_erase`
* `Ethos.Props.C15_nth`
* `Ethos.Props.C15_op_concat`
* `Ethos.Props.C15_op_cons`
* `Ethos.Props.C15_op_erase`
* `Ethos.Props.C15_op_find`
* `Ethos.Props.C15_op_len`
* `Ethos.Props.C15_op_nth`
* `Ethos.Props.C15_op_rev`
* `Ethos.Props.C15_op_setof`
* `Ethos.Props.C16_meq`
* `Ethos.Props.C16_minclude`
* `Ethos.Props.C16_op`
* `Ethos.Props.C17_diff_inter_partial`
* `Ethos.Props.C17_meq`
* `Ethos.Props.C17_minclude`
* `Ethos.Props.C18_dispatch`
* `Ethos.Props.C18_no_nil`
* `Ethos.Props.C18_non_list_op`
* `Ethos.Props.C18_non_list_unary`
* `Ethos.Props.C18_op_singleton_elim`
* `Ethos.Props.C18_undetermined`
* `Ethos.Props.C19_build`
* `Ethos.Props.C19_denotes`
* `Ethos.Props.C19_literal`
* `Ethos.Props.C19_no_ub`
* `Ethos.Props.C19_symbol`
* `Ethos.Props.C19_unique`
* `Ethos.Props.C20_held`
* `Ethos.Props.C20_no_ub_partial`
* `Ethos.Props.C20_rebuild_partial`
* `Ethos.Props.C20_stable`
* `Ethos.Props.C20_unique_partial`
* `Ethos.Props.C21_flags`
* `Ethos.Props.C22_agree`
* `Ethos.Props.C22_has_variable`
* `Ethos.Props.C22_variables`
* `Ethos.Props.C23_arg_list`
* `Ethos.Props.C23_binary`
* `Ethos.Props.C23_chainable`
* `Ethos.Props.C23_desugar`
* `Ethos.Props.C23_left_assoc`
* `Ethos.Props.C23_left_nil`
* `Ethos.Props.C23_list`
* `Ethos.Props.C23_nothing`
* `Ethos.Props.C23_opaque`
* `Ethos.Props.C23_pairs`
* `Ethos.Props.C23_pairwise`
* `Ethos.Props.C23_plain`
* `Ethos.Props.C23_right_assoc`
* `Ethos.Props.C23_right_nil`
* `Ethos.Props.C23_unique`
* `Ethos.Props.C24_left_splice_refuted`
* `Ethos.Props.C24_list`
* `Ethos.Props.C24_list_left`
* `Ethos.Props.C24_splice`
* `Ethos.Props.C24_splice_const`
* `Ethos.Props.C25_one`
* `Ethos.Props.C25_one_left`
* `Ethos.Props.C25_one_open`
* `Ethos.Props.C25_two`
* `Ethos.Props.C25_two_left`
* `Ethos.Props.C26_fold`
* `Ethos.Props.C26_parsed`
* `Ethos.Props.C27_args`
* `Ethos.Props.C27_sound`
* `Ethos.Props.C28_args`
* `Ethos.Props.C28_complete`
* `Ethos.Props.C28_fails_iff`
* `Ethos.Props.C28_terminates`
* `Ethos.Props.C29_application`
* `Ethos.Props.C29_arity`
* `Ethos.Props.C29_first`
* `Ethos.Props.C29_instance`
* `Ethos.Props.C29_none`
* `Ethos.Props.C29_value`
* `Ethos.Props.C30_stuck`
* `Ethos.Props.C31_bigstep`
* `Ethos.Props.C31_built`
* `Ethos.Props.C31_deterministic`
* `Ethos.Props.C31_deterministic_op`
* `Ethos.Props.C31_deterministic_type`
* `Ethos.Props.C31_instance`
* `Ethos.Props.C31_operator`
* `Ethos.Props.C31_values`
* `Ethos.Props.C32_lazy`
* `Ethos.Props.C32_stuck`
* `Ethos.Props.C33_operators_partial`
* `Ethos.Props.C33_reduced_partial`
* `Ethos.Props.C33_refuted`
* `Ethos.Props.C34_program`
* `Ethos.Props.C34_rule`
* `Ethos.Props.C34_self`
* `Ethos.Props.C35_refuted`
* `Ethos.Props.C35_step_partial`
* `Ethos.Props.C36_requires`
* `Ethos.Props.C37_consts_refuted`
* `Ethos.Props.C37_everywhere_partial`
* `Ethos.Props.C37_open_partial`
* `Ethos.Props.C37_partial`
* `Ethos.Props.C37_program_partial`
* `Ethos.Props.C37_program_refuted`
* `Ethos.Props.C37_push_refuted`
* `Ethos.Props.C37_refuted`
* `Ethos.Props.C37_reset_refuted`
* `Ethos.Props.C38_assume_partial`
* `Ethos.Props.C38_file_refuted`
* `Ethos.Props.C38_include_refuted`
* `Ethos.Props.C38_nested_proof_refuted`
* `Ethos.Props.C38_nested_refuted`
* `Ethos.Props.C39_verdict`
* `Ethos.Props.C41_alias_refuted`
* `Ethos.Props.C41_as_constant_refuted`
* `Ethos.Props.C41_as_partial`
* `Ethos.Props.C41_latest_partial`
* `Ethos.Props.C41_manual_refuted`
* `Ethos.Props.C41_none_partial`
* `Ethos.Props.C41_parametric_refuted`
* `Ethos.Props.C42_history`
* `Ethos.Props.C42_program_again`
* `Ethos.Props.C44_once`
* `Ethos.Props.C44_terminates`
* `Ethos.Props.C45_arity`
* `Ethos.Props.C45_complete`
* `Ethos.Props.C45_opaque`
* `Ethos.Props.C45_sound`
* `Ethos.Props.C46_compound`
* `Ethos.Props.C46_declared`
* `Ethos.Props.C46_reduced`
* `Ethos.Props.C46_run`
* `Ethos.Props.C46_subterms`
* `Ethos.Props.C47_name_partial`
* `Ethos.Props.C47_refuted`
* `Ethos.Props.C47_symbol`
* `Ethos.Props.C48_buffering_partial`
* `Ethos.Props.C48_refuted`
* `Ethos.Props.C49_keyword_refuted`
* `Ethos.Props.C49_layout_partial`
* `Ethos.Props.C50_byte_refuted`
* `Ethos.Props.C50_consumed_partial`
* `Ethos.Props.C50_keyword_refuted`
* `Ethos.Props.C50_null_refuted`
* `Ethos.Props.C51_capture_refuted`
* `Ethos.Props.C51_expand`
* `Ethos.Props.C52_curry_total`
* `Ethos.Props.C52_denotes_injective`
* `Ethos.Props.C52_explicit`
* `Ethos.Props.C52_function_type`
* `Ethos.Props.C52_rule`
* `Ethos.Props.C53_blank_refuted`
* `Ethos.Props.C53_include_partial`
* `Ethos.Props.C53_same_file`
* `Ethos.Props.C53_spelling_partial`
* `Ethos.Props.C53_spelling_refuted`
* `Ethos.Props.C54_evaluates`
* `Ethos.Props.C54_nary`
* `Ethos.Props.C54_no_mix`
* `Ethos.Props.C54_not`
* `Ethos.Props.C55_bool`
* `Ethos.Props.C55_concat_refuted`
* `Ethos.Props.C55_element_partial`
* `Ethos.Props.C55_fixed_partial`
* `Ethos.Props.C55_ite_partial`
* `Ethos.Props.C55_ite_refuted`
* `Ethos.Props.C55_list_partial`
* `Ethos.Props.C55_list_refuted`
* `Ethos.Props.C55_nil_refuted`
* `Ethos.Props.C55_number_partial`
* `Ethos.Props.C55_poly_partial`
* `Ethos.Props.C55_requires`
* `Ethos.Props.C55_same_partial`
* `Ethos.Props.C55_symbol_partial`
* `Ethos.Props.C55_var_partial`
* `Ethos.Props.C55_zdiv_refuted`
* `Ethos.Props.C56_macro`
* `Ethos.Props.C56_macro_arity`
* `Ethos.Props.C56_program`
* `Ethos.Props.C56_program_stuck`
* `Ethos.Props.C56_program_undefined`
* `Ethos.Props.C57_drop_refuted`
* `Ethos.Props.C57_innermost`
* `Ethos.Props.C57_pop_partial`
* `Ethos.Props.C57_refuted`
* `Ethos.Props.C58_ends`
* `Ethos.Props.C58_read_partial`
* `Ethos.Props.C58_reads`
* `Ethos.Props.C58_unique`
* `Ethos.Props.C59_denotes`
* `Ethos.Props.C59_unchanged`
* `Ethos.Props.C59_unique`
* `Ethos.Props.C60_bindings`
* `Ethos.Props.C60_effect`
* `Ethos.Props.C60_other_names`
* `Ethos.Props.C61_files`
* `Ethos.Props.C62_formulas`
* `Ethos.Props.C62_proofs`
* `Ethos.Props.C63_const`
* `Ethos.Props.C63_define_const`
* `Ethos.Props.C63_fun`
* `Ethos.Props.C64_definition_refuted`
* `Ethos.Props.C64_several_partial`
* `Ethos.Props.C64_single_partial`
* `Ethos.Props.C64_type_name_refuted`
* `Ethos.Props.C65_close_refuted`
* `Ethos.Props.C65_denotes`
* `Ethos.Props.C65_expr`
* `Ethos.Props.C65_missing`
* `Ethos.Props.C66_control_refuted`
* `Ethos.Props.C66_literal_partial`
* `Ethos.Props.C66_unique`
* `Ethos.Props.C67_command`
* `Ethos.Props.C67_complete`
* `Ethos.Props.C67_keyword_refuted`
* `Ethos.Props.C67_numeral_refuted`
* `Ethos.Props.C67_unique`
* `Ethos.Props.C67_value_refuted`
* `Ethos.Props.C68_file`
* `Ethos.Props.C68_include`
* `Ethos.Props.C68_keywords`
* `Ethos.Props.C68_main`
* `Ethos.Props.C68_nesting`
* `Ethos.Props.C68_option`
* `Ethos.Props.C68_run`
* `Ethos.Props.C68_verdict`
* `Ethos.Props.C69_attribute_refuted`
* `Ethos.Props.C69_injective_partial`
* `Ethos.Props.C69_literal_refuted`
* `Ethos.Props.C69_plain_partial`
* `Ethos.Props.C69_reread_partial`
* `Ethos.Props.C69_variable_refuted`
* `Ethos.Props.C70_config`
* `Ethos.Props.C70_error`
* `Ethos.Props.C70_help`
* `Ethos.Props.C70_program`
* `Ethos.Props.C70_reading`
* `Ethos.Props.C70_run`
* `Ethos.Props.C70_terminal`
* `Ethos.Props.C70_unique`
* `Ethos.Props.C70_unknown_refuted`
* `Ethos.Props.C70_verdict`
* `Ethos.Props.C71_complete_partial`
* `Ethos.Props.C71_definition_refuted`
* `Ethos.Props.C71_history_partial`
* `Ethos.Props.C71_sound_partial`
* `Ethos.Props.C72_declarations`
* `Ethos.Props.C72_definition_refuted`
* `Ethos.Props.C72_meaning`
* `Ethos.Props.C72_step`
* `Ethos.Props.C72_table`
* `Ethos.Props.C72_written`
* `Ethos.Props.C73_command`
* `Ethos.Props.C73_expression`
* `Ethos.Props.C73_files`
* `Ethos.Props.C73_program`
* `Ethos.Props.C73_same`
* `Ethos.Props.C73_texts`
* `Ethos.Props.C74_type`
* `Ethos.Props.C75_sharing`
* `Ethos.Props.C76_concat`
* `Ethos.Props.C76_cons`
* `Ethos.Props.C76_diff`
* `Ethos.Props.C76_eq`
* `Ethos.Props.C76_erase`
* `Ethos.Props.C76_erase_all`
* `Ethos.Props.C76_find`
* `Ethos.Props.C76_inter`
* `Ethos.Props.C76_len`
* `Ethos.Props.C76_meq`
* `Ethos.Props.C76_minclude`
* `Ethos.Props.C76_nth`
* `Ethos.Props.C76_rev`
* `Ethos.Props.C76_setof`
* `Ethos.Props.C76_singleton_elim`
* `Ethos.Props.C77_arrow_refuted`
* `Ethos.Props.C77_as_refuted`
* `Ethos.Props.C77_body_refuted`
* `Ethos.Props.C77_build_partial`
* `Ethos.Props.C77_chain_refuted`
* `Ethos.Props.C77_define_refuted`
* `Ethos.Props.C77_evaluate_partial`
* `Ethos.Props.C77_extract_refuted`
* `Ethos.Props.C77_list_partial`
* `Ethos.Props.C77_literal`
* `Ethos.Props.C77_operator_partial`
* `Ethos.Props.C77_premises_refuted`
* `Ethos.Props.C77_program_partial`
* `Ethos.Props.C77_requires_partial`
* `Ethos.Props.C77_type_partial`
* `Ethos.Props.C78_build`
* `Ethos.Props.C78_check`
* `Ethos.Props.C78_evaluate`
* `Ethos.Props.C78_nameof`
* `Ethos.Props.C78_names`
* `Ethos.Props.C78_operator`
* `Ethos.Props.C78_program`
* `Ethos.Props.C78_type`
* `Ethos.Props.C79_arguments`
* `Ethos.Props.C79_call`
* `Ethos.Props.C79_closed`
* `Ethos.Props.C79_macro`
* `Ethos.Props.C79_malformed_refuted`
* `Ethos.Props.C79_relevant`
* `Ethos.Props.C79_substitute`
* `Ethos.Props.C79_values`
* `Ethos.Props.C80_bindings_partial`
* `Ethos.Props.C80_files`
* `Ethos.Props.C80_forgets`
* `Ethos.Props.C80_fresh_refuted`
* `Ethos.Props.C80_keeps`
* `Ethos.Props.C80_overloads_refuted`
* `Ethos.Props.C80_verdict`
* `Ethos.Props.C81_applied`
* `Ethos.Props.C81_declared`
* `Ethos.Props.C81_forever`
* `Ethos.Props.C81_parameterized`
* `Ethos.Props.C82_call`
* `Ethos.Props.C82_macro`
* `Ethos.Props.C82_program`
* `Ethos.Props.C83_boolean`
* `Ethos.Props.C83_declared`
* `Ethos.Props.C83_default`
* `Ethos.Props.C83_self`
* `Ethos.Props.C84_accepted`
* `Ethos.Props.C84_exact`
