{"claims": [
{"property": "C01", "status": "proved", "theorems": ["Ethos.Props.C01_zdiv_zmod", "Ethos.Props.C01_unique", "Ethos.Props.C01_zero", "Ethos.Props.C01_floor_refuted"], "note": "the code divides Euclidean-style; the manual's floor reading for negative divisors is refuted by C01_floor_refuted"},
{"property": "C02", "status": "proved", "theorems": ["Ethos.Props.C02_add", "Ethos.Props.C02_mul", "Ethos.Props.C02_neg", "Ethos.Props.C02_qdiv", "Ethos.Props.C02_is_neg", "Ethos.Props.C02_gt", "Ethos.Props.C02_no_mix", "Ethos.Props.C02_arith_injective"], "note": ""},
{"property": "C03", "status": "partial", "theorems": ["Ethos.Props.C03_add", "Ethos.Props.C03_mul", "Ethos.Props.C03_and", "Ethos.Props.C03_or", "Ethos.Props.C03_xor", "Ethos.Props.C03_not", "Ethos.Props.C03_neg", "Ethos.Props.C03_div", "Ethos.Props.C03_rem", "Ethos.Props.C03_concat_partial", "Ethos.Props.C03_concat_refuted", "Ethos.Props.C03_width", "Ethos.Props.C03_no_mix", "Ethos.Props.C03_cover"], "note": "concat is proved for total width below 2^32; C03_concat_refuted exhibits the wrap-around of the width above that"},
{"property": "C04", "status": "partial", "theorems": ["Ethos.Props.C04_string", "Ethos.Props.C04_string_length", "Ethos.Props.C04_bits_partial", "Ethos.Props.C04_bits_refuted", "Ethos.Props.C04_bits_at_width"], "note": "strings fully; bit-vectors for j < width; C04_bits_refuted shows that j = width yields a result one bit longer than the argument"},
{"property": "C05", "status": "proved", "theorems": ["Ethos.Props.C05_find", "Ethos.Props.C05_strings_only", "Ethos.Props.C05_wraps"], "note": "for strings shorter than 2^32 characters; C05_wraps shows the position is truncated above"},
{"property": "C06", "status": "partial", "theorems": ["Ethos.Props.C06_to_z_num", "Ethos.Props.C06_to_z_rat", "Ethos.Props.C06_to_z_bin", "Ethos.Props.C06_to_z_str", "Ethos.Props.C06_to_z_else", "Ethos.Props.C06_to_q", "Ethos.Props.C06_to_bin", "Ethos.Props.C06_to_bin_value", "Ethos.Props.C06_to_bin_else", "Ethos.Props.C06_to_str_code", "Ethos.Props.C06_to_str_str", "Ethos.Props.C06_to_str_rat", "Ethos.Props.C06_to_str_dec", "Ethos.Props.C06_to_str_bin", "Ethos.Props.C06_to_str_noncode", "Ethos.Props.C06_to_str_refuted", "Ethos.Props.C06_len"], "note": "all documented conversions; C06_to_str_refuted shows eo::to_str also evaluates on numerals that are not code points"},
{"property": "C07", "status": "proved", "theorems": ["Ethos.Props.C07_evaluate_wf", "Ethos.Props.C07_closed", "Ethos.Props.C07_canonical"], "note": ""},
{"property": "C08", "status": "partial", "theorems": ["Ethos.Props.C08_token_partial", "Ethos.Props.C08_quote_refuted", "Ethos.Props.C08_round_trip", "Ethos.Props.C08_injective", "Ethos.Props.C08_ascii", "Ethos.Props.C08_reader_wf"], "note": "C08_round_trip: escape sequences; C08_token_partial: the printed form of a string without double quotes is one token with the same value. C08_quote_refuted: double quotes are not doubled when printed, so the property fails for strings that contain them."},
{"property": "C09", "status": "proved", "theorems": ["Ethos.Props.C09_string"], "note": "C09_string."},
{"property": "C10", "status": "partial", "theorems": ["Ethos.Props.C10_binary", "Ethos.Props.C10_hex_partial", "Ethos.Props.C10_hex_refuted", "Ethos.Props.C10_hex_ambiguous", "Ethos.Props.C10_normalize"], "note": "binary fully; hexadecimal when no leading zero digit is dropped; C10_hex_refuted gives the counterexample"},
{"property": "C11", "status": "proved", "theorems": ["Ethos.Props.C11_is_ok", "Ethos.Props.C11_eq_values", "Ethos.Props.C11_eq_else", "Ethos.Props.C11_is_eq", "Ethos.Props.C11_is_eq_open", "Ethos.Props.C11_requires", "Ethos.Props.C11_requires_is_eq"], "note": ""},
{"property": "C12", "status": "proved", "theorems": ["Ethos.Props.C12_is_z", "Ethos.Props.C12_is_q", "Ethos.Props.C12_is_str", "Ethos.Props.C12_is_bin", "Ethos.Props.C12_is_bool"], "note": "is_z, is_q, is_bin, is_str, is_bool for every value; literal kinds are represented by literals (LitKinds), bit-vectors well-formed for is_bin"},
{"property": "C13", "status": "partial", "theorems": ["Ethos.Props.C13_op_irreflexive", "Ethos.Props.C13_op_total", "Ethos.Props.C13_op_transitive", "Ethos.Props.C13_op_else", "Ethos.Props.C13_op_hash_partial", "Ethos.Props.C13_cmp_derived_partial", "Ethos.Props.C13_irreflexive", "Ethos.Props.C13_stable", "Ethos.Props.C13_transitive", "Ethos.Props.C13_hash_partial", "Ethos.Props.C13_fails_collision"], "note": "order and stability proved for all histories; uniqueness of eo::hash for numbers below 2^32 (collision beyond refuted by C13_fails_collision)"},
{"property": "C14", "status": "proved", "theorems": ["Ethos.Props.C14_children", "Ethos.Props.C14_recognised", "Ethos.Props.C14_isList", "Ethos.Props.C14_injective", "Ethos.Props.C14_left", "Ethos.Props.C14_left_recognised", "Ethos.Props.C14_nil_refuted"], "note": "the nil terminator must not itself be an application of f (C14_nil_refuted shows the need)"},
{"property": "C15", "status": "proved", "theorems": ["Ethos.Props.C15_cons", "Ethos.Props.C15_concat", "Ethos.Props.C15_len", "Ethos.Props.C15_nth", "Ethos.Props.C15_find_some", "Ethos.Props.C15_find_none", "Ethos.Props.C15_rev", "Ethos.Props.C15_erase", "Ethos.Props.C15_erase_all", "Ethos.Props.C15_setof", "Ethos.Props.C15_op_cons", "Ethos.Props.C15_op_concat", "Ethos.Props.C15_op_len", "Ethos.Props.C15_op_nth", "Ethos.Props.C15_op_find", "Ethos.Props.C15_op_rev", "Ethos.Props.C15_op_erase", "Ethos.Props.C15_op_setof"], "note": "lengths and positions below 2^32 (they are computed as 32-bit numbers)"},
{"property": "C16", "status": "proved", "theorems": ["Ethos.Props.C16_minclude", "Ethos.Props.C16_meq", "Ethos.Props.C16_diff", "Ethos.Props.C16_inter", "Ethos.Props.C16_diff_mult", "Ethos.Props.C16_inter_mult", "Ethos.Props.C16_op"], "note": "list lengths below 2^32 (32-bit counters)"},
{"property": "C17", "status": "partial", "theorems": ["Ethos.Props.C17_len", "Ethos.Props.C17_minclude", "Ethos.Props.C17_meq", "Ethos.Props.C17_cons_partial", "Ethos.Props.C17_nth_partial", "Ethos.Props.C17_concat_partial", "Ethos.Props.C17_rev_partial", "Ethos.Props.C17_erase_all_partial", "Ethos.Props.C17_diff_inter_partial", "Ethos.Props.C17_rev_refuted", "Ethos.Props.C17_concat_refuted", "Ethos.Props.C17_erase_refuted", "Ethos.Props.C17_setof_refuted", "Ethos.Props.C17_diff_refuted"], "note": "exact results proved for all lists; the analogous results are refuted for rev, concat, erase, setof and diff on concrete lists"},
{"property": "C18", "status": "proved", "theorems": ["Ethos.Props.C18_singleton_elim", "Ethos.Props.C18_non_list", "Ethos.Props.C18_dispatch", "Ethos.Props.C18_non_list_op", "Ethos.Props.C18_non_list_unary", "Ethos.Props.C18_no_nil", "Ethos.Props.C18_undetermined", "Ethos.Props.C18_op_singleton_elim"], "note": "operators with a nil terminator declared as a constant or inferred from the type; the nil terminator of parametric operators is computed as in computeConstructorTermInternal"},
{"property": "C19", "status": "proved", "theorems": ["Ethos.Props.C19_denotes", "Ethos.Props.C19_unique", "Ethos.Props.C19_build", "Ethos.Props.C19_literal", "Ethos.Props.C19_symbol", "Ethos.Props.C19_no_ub"], "note": "for all histories without deletion; denotation, literals and symbols for all histories"},
{"property": "C20", "status": "partial", "theorems": ["Ethos.Props.C20_held", "Ethos.Props.C20_stable", "Ethos.Props.C20_unique_partial", "Ethos.Props.C20_rebuild_partial", "Ethos.Props.C20_no_ub_partial", "Ethos.Props.C20_fails_duplicate", "Ethos.Props.C20_fails_ub", "Ethos.Props.C20_fails_dangling", "Ethos.Props.C20_leak"], "note": "handles stay alive and keep their meaning in all histories; uniqueness, re-construction and absence of undefined behaviour for histories in which no list of children is a proper prefix of another one of the same kind; refuted otherwise"},
{"property": "C21", "status": "proved", "theorems": ["Ethos.Props.C21_flags"], "note": ""},
{"property": "C22", "status": "proved", "theorems": ["Ethos.Props.C22_variables", "Ethos.Props.C22_has_variable", "Ethos.Props.C22_agree"], "note": "parameters occur as leaves only"},
{"property": "C23", "status": "proved", "theorems": ["Ethos.Props.C23_desugar", "Ethos.Props.C23_unique", "Ethos.Props.C23_plain", "Ethos.Props.C23_right_assoc", "Ethos.Props.C23_left_assoc", "Ethos.Props.C23_right_nil", "Ethos.Props.C23_left_nil", "Ethos.Props.C23_neighbours", "Ethos.Props.C23_pairs", "Ethos.Props.C23_pairs_count", "Ethos.Props.C23_chainable", "Ethos.Props.C23_pairwise", "Ethos.Props.C23_binary", "Ethos.Props.C23_arg_list", "Ethos.Props.C23_nothing", "Ethos.Props.C23_opaque", "Ethos.Props.C23_list"], "note": "every attribute and every number of arguments, relative to the specification AppForm; results are unique"},
{"property": "C24", "status": "proved", "theorems": ["Ethos.Props.C24_list", "Ethos.Props.C24_list_left", "Ethos.Props.C24_splice", "Ethos.Props.C24_splice_const", "Ethos.Props.C24_left_splice_refuted"], "note": "the :left-assoc-nil analogue of splicing is refuted by C24_left_splice_refuted: the order of the spliced elements is reversed"},
{"property": "C25", "status": "proved", "theorems": ["Ethos.Props.C25_two", "Ethos.Props.C25_two_left", "Ethos.Props.C25_one", "Ethos.Props.C25_one_left", "Ethos.Props.C25_one_open"], "note": "right and left variants; C25_one_open covers a single argument that is not yet ground"},
{"property": "C26", "status": "proved", "theorems": ["Ethos.Props.C26_fold", "Ethos.Props.C26_parsed"], "note": ""},
{"property": "C27", "status": "proved", "theorems": ["Ethos.Props.C27_sound", "Ethos.Props.C27_args"], "note": ""},
{"property": "C28", "status": "proved", "theorems": ["Ethos.Props.C28_terminates", "Ethos.Props.C28_complete", "Ethos.Props.C28_fails_iff", "Ethos.Props.C28_args"], "note": "patterns do not contain the unknown type ANY"},
{"property": "C29", "status": "proved", "theorems": ["Ethos.Props.C29_first", "Ethos.Props.C29_none", "Ethos.Props.C29_arity", "Ethos.Props.C29_instance", "Ethos.Props.C29_value", "Ethos.Props.C29_application"], "note": ""},
{"property": "C30", "status": "proved", "theorems": ["Ethos.Props.C30_not_run", "Ethos.Props.C30_stuck"], "note": ""},
{"property": "C31", "status": "proved", "theorems": ["Ethos.Props.C31_bigstep", "Ethos.Props.C31_deterministic", "Ethos.Props.C31_deterministic_op", "Ethos.Props.C31_deterministic_type", "Ethos.Props.C31_instance", "Ethos.Props.C31_values", "Ethos.Props.C31_operator", "Ethos.Props.C31_built"], "note": "the machine computes exactly the big-step relation; results that read out of bounds are a separate outcome"},
{"property": "C32", "status": "proved", "theorems": ["Ethos.Props.C32_lazy", "Ethos.Props.C32_stuck"], "note": ""},
{"property": "C33", "status": "partial", "theorems": ["Ethos.Props.C33_reduced_partial", "Ethos.Props.C33_refuted", "Ethos.Props.C33_operators_partial"], "note": "C33_refuted: a right-hand side without parameters is returned as it was read, so a result can be reducible. C33_operators_partial: results are reduced if such right-hand sides have nothing to compute, for all terms and programs without eo::nil and environments whose declared types and constructor lists are reduced (for types see C46_run). C33_reduced_partial: without conditions on the environment for terms and programs that use no list operators and none of eo::typeof, eo::var, eo::dt_constructors, eo::dt_selectors."},
{"property": "C34", "status": "proved", "theorems": ["Ethos.Props.C34_program", "Ethos.Props.C34_rule", "Ethos.Props.C34_self"], "note": "C34_program, C34_rule: for accepted programs and rules an instance that leaves no parameter in the patterns leaves none in the right-hand side, the conclusion and the requirements. C34_self: eo::self, which the check exempts, is not accessible outside declare-consts."},
{"property": "C35", "status": "partial", "theorems": ["Ethos.Props.C35_step_partial", "Ethos.Props.C35_refuted"], "note": "C35_step_partial: every accepted step of any run is an instance of a rule declared in the run, provided that a step of a rule with nothing to match gives no arguments and premises. C35_refuted: without this condition a step can conclude (P a) from a rule that says P."},
{"property": "C36", "status": "proved", "theorems": ["Ethos.Props.C36_requires"], "note": ""},
{"property": "C37", "status": "partial", "theorems": ["Ethos.Props.C37_everywhere_partial", "Ethos.Props.C37_program_partial", "Ethos.Props.C37_open_partial", "Ethos.Props.C37_partial", "Ethos.Props.C37_push_refuted", "Ethos.Props.C37_reset_refuted", "Ethos.Props.C37_program_refuted", "Ethos.Props.C37_consts_refuted", "Ethos.Props.C37_refuted"], "note": "Proved for runs that meet the conditions of Spec.Orderly (no reset; in an assumption scope no push, pop, declare-consts or definition of a program declared before; closed formulas; argument counts). The property without them is false: C37_push_refuted, C37_reset_refuted, C37_program_refuted and C37_consts_refuted are accepted runs that prove false. C37_everywhere_partial says it after every command of a run, C37_program_partial for runs of the program on its arguments and the texts of the files."},
{"property": "C38", "status": "partial", "theorems": ["Ethos.Props.C38_assume_partial", "Ethos.Props.C38_nested_refuted", "Ethos.Props.C38_nested_proof_refuted", "Ethos.Props.C38_include_refuted", "Ethos.Props.C38_file_refuted"], "note": "C38_assume_partial: once a reference file was entered and as long as no other file is, an assume outside assumption scopes is accepted only if its formula is, after normalisation, one of the asserted ones. C38_nested_refuted, C38_nested_proof_refuted: an assume within the scope of an assume-push is not compared. C38_include_refuted, C38_file_refuted: entering another file turns the comparison off, also for the proof file of the command line."},
{"property": "C39", "status": "proved", "theorems": ["Ethos.Props.C39_verdict"], "note": ""},
{"property": "C40", "status": "partial", "theorems": ["Ethos.Props.C40_refines", "Ethos.Props.C40_restore_partial", "Ethos.Props.C40_reset_refuted"], "note": "proved for every state reached without (reset); C40_reset_refuted shows that (reset) keeps stale overloads, so that the end of a later scope resurrects a binding made before it"},
{"property": "C41", "status": "partial", "theorems": ["Ethos.Props.C41_latest_partial", "Ethos.Props.C41_none_partial", "Ethos.Props.C41_as_partial", "Ethos.Props.C41_parametric_refuted", "Ethos.Props.C41_as_constant_refuted", "Ethos.Props.C41_manual_refuted", "Ethos.Props.C41_reset_refuted", "Ethos.Props.C41_candidates_partial", "Ethos.Props.C41_alias_refuted"], "note": "proved when candidates other than the symbol written have no parametric nil terminator (C41_parametric_refuted otherwise), no term is bound under two names (C41_alias_refuted otherwise) and without (reset) (C41_reset_refuted otherwise); C41_as_constant_refuted: eo::as never resolves a non-function type; C41_manual_refuted: the manual says that the first declaration is used"},
{"property": "C42", "status": "proved", "theorems": ["Ethos.Props.C42_history", "Ethos.Props.C42_program_again", "Ethos.Props.C42_attribute", "Ethos.Props.C42_program", "Ethos.Props.C42_literals", "Ethos.Props.C42_rules", "Ethos.Props.C42_conflict", "Ethos.Props.C42_recorded"], "note": "C42_history and C42_program_again for all executions of commands; the others for single operations; with the separate table of proof rules, which is the default"},
{"property": "C43", "status": "proved", "theorems": ["Ethos.Props.C43_canonical", "Ethos.Props.C43_reachable"], "note": ""},
{"property": "C44", "status": "proved", "theorems": ["Ethos.Props.C44_once", "Ethos.Props.C44_terminates"], "note": ""},
{"property": "C45", "status": "proved", "theorems": ["Ethos.Props.C45_sound", "Ethos.Props.C45_complete", "Ethos.Props.C45_arity", "Ethos.Props.C45_opaque"], "note": "patterns built from parameters without the type Any inside argument types (QUOTE_TYPE handled); APPLY_OPAQUE included"},
{"property": "C46", "status": "proved", "theorems": ["Ethos.Props.C46_declared", "Ethos.Props.C46_run", "Ethos.Props.C46_compound", "Ethos.Props.C46_reduced", "Ethos.Props.C46_subterms"], "note": "C46_compound and C46_reduced for any environment whose symbols have reduced types; C46_declared and C46_run show that all command sequences lead to such environments, by an invariant over every command. C46_run leaves out type constructors with parameters whose name is overloaded; bound variables have the types they are made with."},
{"property": "C47", "status": "partial", "theorems": ["Ethos.Props.C47_name_partial", "Ethos.Props.C47_symbol", "Ethos.Props.C47_refuted"], "note": "C47_symbol: every name read as a simple symbol; C47_name_partial: all names without null character, backslash and bar that are not reserved words or numerals and, if they begin with eo::, have only symbol characters. C47_refuted: the property fails for the other quoted names."},
{"property": "C48", "status": "partial", "theorems": ["Ethos.Props.C48_buffering_partial", "Ethos.Props.C48_refuted"], "note": "C48_buffering_partial: all inputs without the byte 255 (which matters only when char is signed). C48_refuted: with the byte 255 the tokens depend on the buffering."},
{"property": "C49", "status": "partial", "theorems": ["Ethos.Props.C49_layout_partial", "Ethos.Props.C49_keyword_refuted"], "note": "C49_layout_partial: all inputs without keywords of one character. C49_keyword_refuted: the character after such a keyword is lost."},
{"property": "C50", "status": "partial", "theorems": ["Ethos.Props.C50_consumed_partial", "Ethos.Props.C50_byte_refuted", "Ethos.Props.C50_keyword_refuted", "Ethos.Props.C50_null_refuted"], "note": "C50_consumed_partial: all inputs without the byte 255 and without keywords of one character; C50_byte_refuted, C50_keyword_refuted, C50_null_refuted: otherwise input is ignored. At the level of tokens; that the commands read are all that the tokens denote is C68."},
{"property": "C51", "status": "partial", "theorems": ["Ethos.Props.C51_expand", "Ethos.Props.C51_capture_refuted"], "note": "C51_expand: references are kept apart from text. C51_capture_refuted: in the text that is written, a symbol named like a definition (_v0) cannot be told from a reference."},
{"property": "C52", "status": "proved", "theorems": ["Ethos.Props.C52_curry_injective", "Ethos.Props.C52_curry_total", "Ethos.Props.C52_denotes_injective", "Ethos.Props.C52_explicit", "Ethos.Props.C52_function_type", "Ethos.Props.C52_rule"], "note": ""},
{"property": "C53", "status": "partial", "theorems": ["Ethos.Props.C53_same_file", "Ethos.Props.C53_include_partial", "Ethos.Props.C53_blank_refuted", "Ethos.Props.C53_spelling_partial", "Ethos.Props.C53_spelling_refuted"], "note": "C53_same_file (all paths, file systems without symbolic links), C53_include_partial (paths without blanks at the ends), C53_spelling_partial (respelling before the last segment, not above the root). C53_blank_refuted, C53_spelling_refuted: otherwise it fails. Symbolic links are not modelled (a name followed by .. may then denote another directory)."},
{"property": "C54", "status": "proved", "theorems": ["Ethos.Props.C54_nary", "Ethos.Props.C54_not", "Ethos.Props.C54_no_mix", "Ethos.Props.C54_evaluates"], "note": ""},
{"property": "C55", "status": "partial", "theorems": ["Ethos.Props.C55_list_partial", "Ethos.Props.C55_element_partial", "Ethos.Props.C55_poly_partial", "Ethos.Props.C55_number_partial", "Ethos.Props.C55_list_refuted", "Ethos.Props.C55_requires", "Ethos.Props.C55_ite_partial", "Ethos.Props.C55_ite_refuted", "Ethos.Props.C55_bool", "Ethos.Props.C55_same_partial", "Ethos.Props.C55_concat_refuted", "Ethos.Props.C55_zdiv_refuted", "Ethos.Props.C55_fixed_partial", "Ethos.Props.C55_symbol_partial", "Ethos.Props.C55_var_partial", "Ethos.Props.C55_nil_refuted"], "note": "proved for eo::requires, all Boolean operators, arithmetic and conversions with closed literal type rules; refuted for eo::ite (C55_ite_refuted), eo::concat with width-dependent types (C55_concat_refuted) and eo::zdiv on bit-vectors (C55_zdiv_refuted). List operators: C55_list_partial, C55_element_partial, C55_number_partial for operators of closed type (-> A B B) or (-> B A B), C55_poly_partial for (-> T T T); C55_list_refuted: otherwise the value of eo::list_nth, eo::list_singleton_elim, eo::cons and eo::list_concat can have another type or none. C55_symbol_partial: eo::hash and eo::nameof; C55_var_partial: eo::var; C55_nil_refuted: eo::nil. Not covered: operators whose type depends on its arguments in another way, eo::typeof, eo::dt_constructors, eo::dt_selectors"},
{"property": "C56", "status": "proved", "theorems": ["Ethos.Props.C56_macro", "Ethos.Props.C56_macro_arity", "Ethos.Props.C56_program", "Ethos.Props.C56_program_stuck", "Ethos.Props.C56_program_undefined"], "note": ""},
{"property": "C57", "status": "partial", "theorems": ["Ethos.Props.C57_pop_partial", "Ethos.Props.C57_innermost", "Ethos.Props.C57_drop_refuted", "Ethos.Props.C57_refuted"], "note": "C57_pop_partial: a step-pop with the declared number of arguments discharges the assumption it removes; C57_innermost: this is that of the innermost open assume-push. C57_refuted, C57_drop_refuted: with another number of arguments the assumption is dropped without being discharged."},
{"property": "C58", "status": "partial", "theorems": ["Ethos.Props.C58_reads", "Ethos.Props.C58_read_partial", "Ethos.Props.C58_ends", "Ethos.Props.C58_unique"], "note": "C58_reads, C58_unique, C58_ends; C58_read_partial: the converse except for keywords of one character (for which it fails, C49_keyword_refuted) and unclosed strings and quoted symbols (which are no lexemes and an error in the parser)."},
{"property": "C59", "status": "proved", "theorems": ["Ethos.Props.C59_denotes", "Ethos.Props.C59_unchanged", "Ethos.Props.C59_unique"], "note": "C59_denotes with the relation Spec.Elab; C59_unchanged, C59_unique"},
{"property": "C60", "status": "proved", "theorems": ["Ethos.Props.C60_bindings", "Ethos.Props.C60_effect", "Ethos.Props.C60_other_names"], "note": "C60_bindings with the relation Spec.Effect; the values of parametric define and the formulas of steps are the subject of C56 and C35"},
{"property": "C61", "status": "proved", "theorems": ["Ethos.Props.C61_files"], "note": "C61_files with the relations Spec.Nest and Spec.Into"},
{"property": "C62", "status": "proved", "theorems": ["Ethos.Props.C62_formulas", "Ethos.Props.C62_proofs"], "note": "all states and commands; types are taken in the state in which the command is executed, up to its table of names"},
{"property": "C63", "status": "proved", "theorems": ["Ethos.Props.C63_const", "Ethos.Props.C63_fun", "Ethos.Props.C63_define_const"], "note": "all states; declare-parameterized-const and parameters are not covered"},
{"property": "C64", "status": "partial", "theorems": ["Ethos.Props.C64_single_partial", "Ethos.Props.C64_several_partial", "Ethos.Props.C64_type_name_refuted", "Ethos.Props.C64_definition_refuted"], "note": "all runs; C64_type_name_refuted: the name of a single datatype with parameters is not bound; C64_definition_refuted: fewer definitions than names are accepted"},
{"property": "C65", "status": "partial", "theorems": ["Ethos.Props.C65_expr", "Ethos.Props.C65_denotes", "Ethos.Props.C65_close_refuted", "Ethos.Props.C65_missing"], "note": "all sequences of lexemes without null characters and without control characters in strings; C65_close_refuted: a closing parenthesis where an expression is expected reads the last element of an empty vector"},
{"property": "C66", "status": "partial", "theorems": ["Ethos.Props.C66_literal_partial", "Ethos.Props.C66_unique", "Ethos.Props.C66_control_refuted"], "note": "all literal tokens without null characters, shorter than 2^30 characters; C66_control_refuted: control characters in strings are dropped"},
{"property": "C67", "status": "partial", "theorems": ["Ethos.Props.C67_command", "Ethos.Props.C67_unique", "Ethos.Props.C67_complete", "Ethos.Props.C67_numeral_refuted", "Ethos.Props.C67_value_refuted", "Ethos.Props.C67_keyword_refuted"], "note": "all commands on all tokens without null characters, shorter than 2^30 characters; three kinds of inputs that are no commands are accepted (C67_numeral_refuted, C67_keyword_refuted, C67_value_refuted) and are part of the grammar of C67_command"},
{"property": "C68", "status": "proved", "theorems": ["Ethos.Props.C68_file", "Ethos.Props.C68_run", "Ethos.Props.C68_include", "Ethos.Props.C68_main", "Ethos.Props.C68_verdict", "Ethos.Props.C68_nesting", "Ethos.Props.C68_option", "Ethos.Props.C68_keywords"], "note": "C68_main: a run on texts succeeds exactly if the files and the input can be read one command of the grammar after the other (C68_include, C68_file for single files; the grammar is that of C67 with the three laxities shown there); C68_run: it is then a run on lists of commands that are written in the texts, with the same final state and response; C68_verdict and C68_nesting carry C39 and C61 over to texts; C68_option and C68_keywords: which settings an option of the command `set-option` or of the command line changes, and which words are keywords then."},
{"property": "C69", "status": "partial", "theorems": ["Ethos.Props.C69_reread_partial", "Ethos.Props.C69_plain_partial", "Ethos.Props.C69_injective_partial", "Ethos.Props.C69_attribute_refuted", "Ethos.Props.C69_literal_refuted", "Ethos.Props.C69_variable_refuted"], "note": "C69_reread_partial: all terms of the class Stable, whose printed applications denote, where they are read, what they are printed for; C69_plain_partial: a class given by syntax (literals, visible symbols, curried applications of constants without attributes, function types, variables); C69_injective_partial. Missing because it is false: terms with operators with attributes (C69_attribute_refuted), decimals, hexadecimal constants with leading zeros, strings with double quotes (C69_literal_refuted), and applied variables (C69_variable_refuted)."},
{"property": "C70", "status": "proved", "theorems": ["Ethos.Props.C70_run", "Ethos.Props.C70_help", "Ethos.Props.C70_config", "Ethos.Props.C70_unique", "Ethos.Props.C70_error", "Ethos.Props.C70_program", "Ethos.Props.C70_verdict", "Ethos.Props.C70_terminal", "Ethos.Props.C70_unknown_refuted", "Ethos.Props.C70_reading"], "note": "C70_run, C70_help, C70_config, C70_error, C70_unique: the arguments; C70_program, C70_verdict: the whole program, from arguments and texts to the response, for texts without null characters and byte 255 and with the option rule-sym-table on. C70_unknown_refuted: an unknown option that is the only argument that is not an option is taken for the name of the input (this is part of C70_run)."},
{"property": "C71", "status": "partial", "theorems": ["Ethos.Props.C71_sound_partial", "Ethos.Props.C71_complete_partial", "Ethos.Props.C71_history_partial", "Ethos.Props.C71_definition_refuted"], "note": "C71_sound_partial, C71_complete_partial, C71_history_partial: the loop of getType over the table, for a fixed environment, all tables that come about by requests, and all bounds. Assumed: the entries made by the evaluation of a type, in nested requests, are of the same kind (Growing; they are made by the same loop), and a term quoted in the type of a subterm has an entry or is part of it (QuotesKnown; the parser quotes parameters only). C71_definition_refuted: an entry made before a declared program is defined is kept although the type is another afterwards."},
{"property": "C72", "status": "proved", "theorems": ["Ethos.Props.C72_meaning", "Ethos.Props.C72_declarations", "Ethos.Props.C72_table", "Ethos.Props.C72_written", "Ethos.Props.C72_step", "Ethos.Props.C72_definition_refuted"], "note": "C72_meaning: after any sequence of commands, under the one condition that no existing program and no category of literals was defined since; C72_declarations: the condition on the commands; C72_written: the terms it is about are all that can be written; C72_step for rules without :premise-list (with it the operator is applied anew, and an overloaded operator is resolved among the symbols of the time); C72_table for the table of types of C71. C72_definition_refuted: the condition on definitions is needed."},
{"property": "C73", "status": "proved", "theorems": ["Ethos.Props.C73_unique", "Ethos.Props.C73_program", "Ethos.Props.C73_texts", "Ethos.Props.C73_files", "Ethos.Props.C73_command", "Ethos.Props.C73_expression", "Ethos.Props.C73_same"], "note": "C73_program for the program on arguments and texts, C73_texts, C73_files, C73_command and C73_expression with the state that is reached: errors and undefined behaviour are outcomes too. Nothing is said about runs that do not end: programs of the language may recurse forever."},
{"property": "C74", "status": "proved", "theorems": ["Ethos.Props.C74_type"], "note": "C74_type: for every run, every list of parameters and every result type."},
{"property": "C75", "status": "proved", "theorems": ["Ethos.Props.C75_sharing"], "note": "C75_sharing: all terms; lists_exist shows that the list of subterms it speaks of exists."},
{"property": "C76", "status": "proved", "theorems": ["Ethos.Props.C76_eq", "Ethos.Props.C76_cons", "Ethos.Props.C76_len", "Ethos.Props.C76_rev", "Ethos.Props.C76_setof", "Ethos.Props.C76_singleton_elim", "Ethos.Props.C76_erase", "Ethos.Props.C76_erase_all", "Ethos.Props.C76_find", "Ethos.Props.C76_nth", "Ethos.Props.C76_concat", "Ethos.Props.C76_diff", "Ethos.Props.C76_inter", "Ethos.Props.C76_minclude", "Ethos.Props.C76_meq"], "note": "All lists and arguments with a value; the programs are taken as the run of the file leaves them (defs_hold shows a reachable state, its hypotheses on lists included). Lists shorter than 2^32, and $eo_nil, which the user of the file has to complete, right for the sublists that are built."},
{"property": "C77", "status": "partial", "theorems": ["Ethos.Props.C77_evaluate_partial", "Ethos.Props.C77_operator_partial", "Ethos.Props.C77_type_partial", "Ethos.Props.C77_program_partial", "Ethos.Props.C77_literal", "Ethos.Props.C77_arity", "Ethos.Props.C77_accepts", "Ethos.Props.C77_extract_refuted", "Ethos.Props.C77_define_refuted", "Ethos.Props.C77_body_refuted", "Ethos.Props.C77_arrow_refuted", "Ethos.Props.C77_as_refuted", "Ethos.Props.C77_chain_refuted", "Ethos.Props.C77_premises_refuted", "Ethos.Props.C77_build_partial", "Ethos.Props.C77_list_partial", "Ethos.Props.C77_requires_partial"], "note": "Evaluation, operators, programs, types and the building of terms from parsed applications have no undefined behaviour for operators with their number of arguments. It is not so for all inputs: the number of arguments is not checked in definitions and program bodies, (eo::extract s i) with two arguments is accepted, and (->), (as), some chainable operators and some premise lists use what is missing (C77_*_refuted). Reading tokens and executing commands is not covered by the positive part."},
{"property": "C78", "status": "proved", "theorems": ["Ethos.Props.C78_evaluate", "Ethos.Props.C78_operator", "Ethos.Props.C78_type", "Ethos.Props.C78_program", "Ethos.Props.C78_build", "Ethos.Props.C78_check", "Ethos.Props.C78_injective", "Ethos.Props.C78_state", "Ethos.Props.C78_names", "Ethos.Props.C78_nameof"], "note": "All outcomes, also undefined behaviour and reaching the bound on calls. The numbers that eo::hash gives to terms are part of the state and move along. About evaluation, typing and building of terms, not about the text of commands."},
{"property": "C79", "status": "proved", "theorems": ["Ethos.Props.C79_relevant", "Ethos.Props.C79_closed", "Ethos.Props.C79_arguments", "Ethos.Props.C79_substitute", "Ethos.Props.C79_values", "Ethos.Props.C79_call", "Ethos.Props.C79_macro", "Ethos.Props.C79_malformed_refuted"], "note": "All terms in which each eo::ite has its three arguments; in others the parameters are not replaced (C79_malformed_refuted). C79_call: right-hand sides with parameters; those without are returned as they are (C33_refuted)."},
{"property": "C80", "status": "partial", "theorems": ["Ethos.Props.C80_forgets", "Ethos.Props.C80_keeps", "Ethos.Props.C80_files", "Ethos.Props.C80_verdict", "Ethos.Props.C80_bindings_partial", "Ethos.Props.C80_fresh_refuted", "Ethos.Props.C80_overloads_refuted"], "note": "The effect of reset, the verdict, and the meaning of names and expressions after a reset are proved; the last under the condition that no name is overloaded when reset is executed. Without it the claim is false (C80_overloads_refuted): the overloads are not cleared. A reset state is also not the initial state (C80_fresh_refuted): the builtin operators are unknown."},
{"property": "C81", "status": "proved", "theorems": ["Ethos.Props.C81_unique", "Ethos.Props.C81_declared", "Ethos.Props.C81_forever", "Ethos.Props.C81_applied", "Ethos.Props.C81_parameterized"], "note": "declare-const and declare-parameterized-const in states reached without reset; persistence over all executions. The attributes given implicitly to ambiguous and opaque constants are C74, those of datatypes C64, those of parameters C59."},
{"property": "C82", "status": "proved", "theorems": ["Ethos.Props.C82_program", "Ethos.Props.C82_call", "Ethos.Props.C82_macro"], "note": "C82_program: the written cases, in order, define the program in every later state. C82_call: its value on values is that of the instance of the first matching case; the case used must not contain eo::? (the wildcard) in its patterns, and every eo::ite in a right-hand side with parameters must have three arguments (C79_malformed_refuted shows what happens otherwise). C82_macro: the same for define, as long as the macro has no attribute and is not overloaded."},
{"property": "C83", "status": "proved", "theorems": ["Ethos.Props.C83_declared", "Ethos.Props.C83_self", "Ethos.Props.C83_default", "Ethos.Props.C83_boolean"], "note": "C83_declared: what is set, that it is unique and that the types of literals follow it for the rest of the run. C83_self: the value for eo::self is the value of the instance, for types in which every eo::ite has three arguments (see C79). C83_default and C83_boolean: categories without a declared type and Booleans. The code also records the unknown type as the declared one when the type of a literal without one is asked for, and then rejects a later declaration; the model accepts it, so the claims about accepted declarations cover more runs than the code has."},
{"property": "C84", "status": "proved", "theorems": ["Ethos.Props.C84_accepted", "Ethos.Props.C84_exact"], "note": "C84_accepted: instances of the rule are accepted, for every declared rule. C84_exact: for rules with something to match, acceptance with a conclusion is the same as following by the rule (for the others see C35_refuted). The limit of the model is the only other outcome, see C73. A step-pop must still find its scope open."}
]}
