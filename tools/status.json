{
 "C01": [
  "proved",
  "the code divides Euclidean-style; the manual's floor reading for negative divisors is refuted by C01_floor_refuted"
 ],
 "C02": [
  "proved",
  ""
 ],
 "C03": [
  "partial",
  "concat is proved for total width below 2^32; C03_concat_refuted exhibits the wrap-around of the width above that"
 ],
 "C04": [
  "partial",
  "strings fully; bit-vectors for j < width; C04_bits_refuted shows that j = width yields a result one bit longer than the argument"
 ],
 "C05": [
  "proved",
  "for strings shorter than 2^32 characters; C05_wraps shows the position is truncated above"
 ],
 "C06": [
  "partial",
  "all documented conversions; C06_to_str_refuted shows eo::to_str also evaluates on numerals that are not code points"
 ],
 "C07": [
  "proved",
  ""
 ],
 "C08": [
  "partial",
  "C08_round_trip: escape sequences; C08_token_partial: the printed form of a string without double quotes is one token with the same value. C08_quote_refuted: double quotes are not doubled when printed, so the property fails for strings that contain them."
 ],
 "C09": [
  "proved",
  "C09_string."
 ],
 "C10": [
  "partial",
  "binary fully; hexadecimal when no leading zero digit is dropped; C10_hex_refuted gives the counterexample"
 ],
 "C11": [
  "proved",
  ""
 ],
 "C12": [
  "proved",
  "is_z, is_q, is_bin, is_str, is_bool for every value; literal kinds are represented by literals (LitKinds), bit-vectors well-formed for is_bin"
 ],
 "C13": [
  "partial",
  "order and stability proved for all histories; uniqueness of eo::hash for numbers below 2^32 (collision beyond refuted by C13_fails_collision)"
 ],
 "C14": [
  "proved",
  "the nil terminator must not itself be an application of f (C14_nil_refuted shows the need)"
 ],
 "C15": [
  "proved",
  "lengths and positions below 2^32 (they are computed as 32-bit numbers)"
 ],
 "C16": [
  "proved",
  "list lengths below 2^32 (32-bit counters)"
 ],
 "C17": [
  "partial",
  "exact results proved for all lists; the analogous results are refuted for rev, concat, erase, setof and diff on concrete lists"
 ],
 "C18": [
  "proved",
  "operators with a nil terminator declared as a constant or inferred from the type; the nil terminator of parametric operators is computed as in computeConstructorTermInternal"
 ],
 "C19": [
  "proved",
  "for all histories without deletion; denotation, literals and symbols for all histories"
 ],
 "C20": [
  "partial",
  "handles stay alive and keep their meaning in all histories; uniqueness, re-construction and absence of undefined behaviour for histories in which no list of children is a proper prefix of another one of the same kind; refuted otherwise"
 ],
 "C21": [
  "proved",
  ""
 ],
 "C22": [
  "proved",
  "parameters occur as leaves only"
 ],
 "C23": [
  "proved",
  "every attribute and every number of arguments, relative to the specification AppForm; results are unique"
 ],
 "C24": [
  "proved",
  "the :left-assoc-nil analogue of splicing is refuted by C24_left_splice_refuted: the order of the spliced elements is reversed"
 ],
 "C25": [
  "proved",
  "right and left variants; C25_one_open covers a single argument that is not yet ground"
 ],
 "C26": [
  "proved",
  ""
 ],
 "C27": [
  "proved",
  ""
 ],
 "C28": [
  "proved",
  "patterns do not contain the unknown type ANY"
 ],
 "C29": [
  "proved",
  ""
 ],
 "C30": [
  "proved",
  ""
 ],
 "C31": [
  "proved",
  "the machine computes exactly the big-step relation; results that read out of bounds are a separate outcome"
 ],
 "C32": [
  "proved",
  ""
 ],
 "C33": [
  "partial",
  "C33_refuted: a right-hand side without parameters is returned as it was read, so a result can be reducible. C33_operators_partial: results are reduced if such right-hand sides have nothing to compute, for all terms and programs without eo::nil and environments whose declared types and constructor lists are reduced (for types see C46_run). C33_reduced_partial: without conditions on the environment for terms and programs that use no list operators and none of eo::typeof, eo::var, eo::dt_constructors, eo::dt_selectors."
 ],
 "C34": [
  "proved",
  "C34_program, C34_rule: for accepted programs and rules an instance that leaves no parameter in the patterns leaves none in the right-hand side, the conclusion and the requirements. C34_self: eo::self, which the check exempts, is not accessible outside declare-consts."
 ],
 "C35": [
  "partial",
  "C35_step_partial: every accepted step of any run is an instance of a rule declared in the run, provided that a step of a rule with nothing to match gives no arguments and premises. C35_refuted: without this condition a step can conclude (P a) from a rule that says P."
 ],
 "C36": [
  "proved",
  ""
 ],
 "C37": [
  "partial",
  "Proved for runs that meet the conditions of Spec.Orderly (no reset; in an assumption scope no push, pop, declare-consts or definition of a program declared before; closed formulas; argument counts). The property without them is false: C37_push_refuted, C37_reset_refuted, C37_program_refuted and C37_consts_refuted are accepted runs that prove false. C37_everywhere_partial says it after every command of a run, C37_program_partial for runs of the program on its arguments and the texts of the files."
 ],
 "C38": [
  "partial",
  "C38_assume_partial: once a reference file was entered and as long as no other file is, an assume outside assumption scopes is accepted only if its formula is, after normalisation, one of the asserted ones. C38_nested_refuted, C38_nested_proof_refuted: an assume within the scope of an assume-push is not compared. C38_include_refuted, C38_file_refuted: entering another file turns the comparison off, also for the proof file of the command line."
 ],
 "C39": [
  "proved",
  ""
 ],
 "C40": [
  "partial",
  "proved for every state reached without (reset); C40_reset_refuted shows that (reset) keeps stale overloads, so that the end of a later scope resurrects a binding made before it"
 ],
 "C41": [
  "partial",
  "proved when candidates other than the symbol written have no parametric nil terminator (C41_parametric_refuted otherwise), no term is bound under two names (C41_alias_refuted otherwise) and without (reset) (C41_reset_refuted otherwise); C41_as_constant_refuted: eo::as never resolves a non-function type; C41_manual_refuted: the manual says that the first declaration is used"
 ],
 "C42": [
  "proved",
  "C42_history and C42_program_again for all executions of commands; the others for single operations; with the separate table of proof rules, which is the default"
 ],
 "C43": [
  "proved",
  ""
 ],
 "C44": [
  "proved",
  ""
 ],
 "C45": [
  "proved",
  "patterns built from parameters without the type Any inside argument types (QUOTE_TYPE handled); APPLY_OPAQUE included"
 ],
 "C46": [
  "proved",
  "C46_compound and C46_reduced for any environment whose symbols have reduced types; C46_declared and C46_run show that all command sequences lead to such environments, by an invariant over every command. C46_run leaves out type constructors with parameters whose name is overloaded; bound variables have the types they are made with."
 ],
 "C47": [
  "partial",
  "C47_symbol: every name read as a simple symbol; C47_name_partial: all names without null character, backslash and bar that are not reserved words or numerals and, if they begin with eo::, have only symbol characters. C47_refuted: the property fails for the other quoted names."
 ],
 "C48": [
  "partial",
  "C48_buffering_partial: all inputs without the byte 255 (which matters only when char is signed). C48_refuted: with the byte 255 the tokens depend on the buffering."
 ],
 "C49": [
  "partial",
  "C49_layout_partial: all inputs without keywords of one character. C49_keyword_refuted: the character after such a keyword is lost."
 ],
 "C50": [
  "partial",
  "C50_consumed_partial: all inputs without the byte 255 and without keywords of one character; C50_byte_refuted, C50_keyword_refuted, C50_null_refuted: otherwise input is ignored. At the level of tokens; that the commands read are all that the tokens denote is C68."
 ],
 "C51": [
  "partial",
  "C51_expand: references are kept apart from text. C51_capture_refuted: in the text that is written, a symbol named like a definition (_v0) cannot be told from a reference."
 ],
 "C52": [
  "proved",
  ""
 ],
 "C53": [
  "partial",
  "C53_same_file (all paths, file systems without symbolic links), C53_include_partial (paths without blanks at the ends), C53_spelling_partial (respelling before the last segment, not above the root). C53_blank_refuted, C53_spelling_refuted: otherwise it fails. Symbolic links are not modelled (a name followed by .. may then denote another directory)."
 ],
 "C54": [
  "proved",
  ""
 ],
 "C55": [
  "partial",
  "proved for eo::requires, all Boolean operators, arithmetic and conversions with closed literal type rules; refuted for eo::ite (C55_ite_refuted), eo::concat with width-dependent types (C55_concat_refuted) and eo::zdiv on bit-vectors (C55_zdiv_refuted). List operators: C55_list_partial, C55_element_partial, C55_number_partial for operators of closed type (-> A B B) or (-> B A B), C55_poly_partial for (-> T T T); C55_list_refuted: otherwise the value of eo::list_nth, eo::list_singleton_elim, eo::cons and eo::list_concat can have another type or none. C55_symbol_partial: eo::hash and eo::nameof; C55_var_partial: eo::var; C55_nil_refuted: eo::nil. Not covered: operators whose type depends on its arguments in another way, eo::typeof, eo::dt_constructors, eo::dt_selectors"
 ],
 "C56": [
  "proved",
  ""
 ],
 "C57": [
  "partial",
  "C57_pop_partial: a step-pop with the declared number of arguments discharges the assumption it removes; C57_innermost: this is that of the innermost open assume-push. C57_refuted, C57_drop_refuted: with another number of arguments the assumption is dropped without being discharged."
 ],
 "C58": [
  "partial",
  "C58_reads, C58_unique, C58_ends; C58_read_partial: the converse except for keywords of one character (for which it fails, C49_keyword_refuted) and unclosed strings and quoted symbols (which are no lexemes and an error in the parser)."
 ],
 "C59": [
  "proved",
  "C59_denotes with the relation Spec.Elab; C59_unchanged, C59_unique"
 ],
 "C60": [
  "proved",
  "C60_bindings with the relation Spec.Effect; the values of parametric define and the formulas of steps are the subject of C56 and C35"
 ],
 "C61": [
  "proved",
  "C61_files with the relations Spec.Nest and Spec.Into"
 ],
 "C62": [
  "proved",
  "all states and commands; types are taken in the state in which the command is executed, up to its table of names"
 ],
 "C64": [
  "partial",
  "all runs; C64_type_name_refuted: the name of a single datatype with parameters is not bound; C64_definition_refuted: fewer definitions than names are accepted"
 ],
 "C63": [
  "proved",
  "all states; declare-parameterized-const and parameters are not covered"
 ],
 "C65": [
  "partial",
  "all sequences of lexemes without null characters and without control characters in strings; C65_close_refuted: a closing parenthesis where an expression is expected reads the last element of an empty vector"
 ],
 "C66": [
  "partial",
  "all literal tokens without null characters, shorter than 2^30 characters; C66_control_refuted: control characters in strings are dropped"
 ],
 "C67": [
  "partial",
  "all commands on all tokens without null characters, shorter than 2^30 characters; three kinds of inputs that are no commands are accepted (C67_numeral_refuted, C67_keyword_refuted, C67_value_refuted) and are part of the grammar of C67_command"
 ],
 "C68": [
  "proved",
  "C68_main: a run on texts succeeds exactly if the files and the input can be read one command of the grammar after the other (C68_include, C68_file for single files; the grammar is that of C67 with the three laxities shown there); C68_run: it is then a run on lists of commands that are written in the texts, with the same final state and response; C68_verdict and C68_nesting carry C39 and C61 over to texts; C68_option and C68_keywords: which settings an option of the command `set-option` or of the command line changes, and which words are keywords then."
 ],
 "C69": [
  "partial",
  "C69_reread_partial: all terms of the class Stable, whose printed applications denote, where they are read, what they are printed for; C69_plain_partial: a class given by syntax (literals, visible symbols, curried applications of constants without attributes, function types, variables); C69_injective_partial. Missing because it is false: terms with operators with attributes (C69_attribute_refuted), decimals, hexadecimal constants with leading zeros, strings with double quotes (C69_literal_refuted), and applied variables (C69_variable_refuted)."
 ],
 "C70": [
  "proved",
  "C70_run, C70_help, C70_config, C70_error, C70_unique: the arguments; C70_program, C70_verdict: the whole program, from arguments and texts to the response, for texts without null characters and byte 255 and with the option rule-sym-table on. C70_unknown_refuted: an unknown option that is the only argument that is not an option is taken for the name of the input (this is part of C70_run)."
 ],
 "C71": [
  "partial",
  "C71_sound_partial, C71_complete_partial, C71_history_partial: the loop of getType over the table, for a fixed environment, all tables that come about by requests, and all bounds. Assumed: the entries made by the evaluation of a type, in nested requests, are of the same kind (Growing; they are made by the same loop), and a term quoted in the type of a subterm has an entry or is part of it (QuotesKnown; the parser quotes parameters only). C71_definition_refuted: an entry made before a declared program is defined is kept although the type is another afterwards."
 ],
 "C72": [
  "proved",
  "C72_meaning: after any sequence of commands, under the one condition that no existing program and no category of literals was defined since; C72_declarations: the condition on the commands; C72_written: the terms it is about are all that can be written; C72_step for rules without :premise-list (with it the operator is applied anew, and an overloaded operator is resolved among the symbols of the time); C72_table for the table of types of C71. C72_definition_refuted: the condition on definitions is needed."
 ],
 "C73": [
  "proved",
  "C73_program for the program on arguments and texts, C73_texts, C73_files, C73_command and C73_expression with the state that is reached: errors and undefined behaviour are outcomes too. Nothing is said about runs that do not end: programs of the language may recurse forever."
 ],
 "C74": [
  "proved",
  "C74_type: for every run, every list of parameters and every result type."
 ],
 "C75": [
  "proved",
  "C75_sharing: all terms; lists_exist shows that the list of subterms it speaks of exists."
 ],
 "C76": [
  "proved",
  "All lists and arguments with a value; the programs are taken as the run of the file leaves them (defs_hold shows a reachable state, its hypotheses on lists included). Lists shorter than 2^32, and $eo_nil, which the user of the file has to complete, right for the sublists that are built."
 ],
 "C77": [
  "partial",
  "Evaluation, operators, programs, types and the building of terms from parsed applications have no undefined behaviour for operators with their number of arguments. It is not so for all inputs: the number of arguments is not checked in definitions and program bodies, (eo::extract s i) with two arguments is accepted, and (->), (as), some chainable operators and some premise lists use what is missing (C77_*_refuted). Reading tokens and executing commands is not covered by the positive part."
 ],
 "C78": [
  "proved",
  "All outcomes, also undefined behaviour and reaching the bound on calls. The numbers that eo::hash gives to terms are part of the state and move along. About evaluation, typing and building of terms, not about the text of commands."
 ],
 "C79": [
  "proved",
  "All terms in which each eo::ite has its three arguments; in others the parameters are not replaced (C79_malformed_refuted). C79_call: right-hand sides with parameters; those without are returned as they are (C33_refuted)."
 ],
 "C80": [
  "partial",
  "The effect of reset, the verdict, and the meaning of names and expressions after a reset are proved; the last under the condition that no name is overloaded when reset is executed. Without it the claim is false (C80_overloads_refuted): the overloads are not cleared. A reset state is also not the initial state (C80_fresh_refuted): the builtin operators are unknown."
 ],
 "C81": [
  "proved",
  "declare-const and declare-parameterized-const in states reached without reset; persistence over all executions. The attributes given implicitly to ambiguous and opaque constants are C74, those of datatypes C64, those of parameters C59."
 ],
 "C82": [
  "proved",
  "C82_program: the written cases, in order, define the program in every later state. C82_call: its value on values is that of the instance of the first matching case; the case used must not contain eo::? (the wildcard) in its patterns, and every eo::ite in a right-hand side with parameters must have three arguments (C79_malformed_refuted shows what happens otherwise). C82_macro: the same for define, as long as the macro has no attribute and is not overloaded."
 ],
 "C83": [
  "proved",
  "C83_declared: what is set, that it is unique and that the types of literals follow it for the rest of the run. C83_self: the value for eo::self is the value of the instance, for types in which every eo::ite has three arguments (see C79). C83_default and C83_boolean: categories without a declared type and Booleans. The code also records the unknown type as the declared one when the type of a literal without one is asked for, and then rejects a later declaration; the model accepts it, so the claims about accepted declarations cover more runs than the code has."
 ],
 "C84": [
  "proved",
  "C84_accepted: instances of the rule are accepted, for every declared rule. C84_exact: for rules with something to match, acceptance with a conclusion is the same as following by the rule (for the others see C35_refuted). The limit of the model is the only other outcome, see C73. A step-pop must still find its scope open."
 ]
}