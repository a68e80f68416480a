{"id": "C01", "title": "Integer division and remainder are exact", "statement": "For numerals a and d with d nonzero, (eo::zdiv a d)=q and (eo::zmod a d)=r evaluate, a = d*q + r and 0 <= r < |d| (Euclidean division); for d = 0 neither evaluates.", "quantifier": "all integers a and d", "why_tests_cant": "The domain is infinite; a test suite samples finitely many values and cannot exclude a wrong one between samples.", "anchors": ["src/literal.cpp: Literal::evaluate EVAL_INT_DIV/EVAL_INT_MOD", "src/util/integer.cpp: euclidianQR, euclidianDivideQuotient, euclidianDivideRemainder"]}
{"id": "C02", "title": "Arithmetic on numerals, decimals and rationals is exact and never mixes categories", "statement": "eo::add, eo::mul, eo::neg, eo::qdiv, eo::is_neg and eo::gt applied to arithmetic values of one category return the mathematically exact result in the documented category; arguments of different categories, or a zero divisor of eo::qdiv, leave the term unevaluated.", "quantifier": "all operators, all pairs of arithmetic literals", "why_tests_cant": "The domain is infinite; a test suite samples finitely many values and cannot exclude a wrong one between samples.", "anchors": ["src/literal.cpp: Literal::evaluate", "src/util/integer.h", "src/util/rational.h"]}
{"id": "C03", "title": "Bit-vector operators agree with modular arithmetic", "statement": "eo::add/mul/neg/not/and/or/xor/zdiv/zmod/concat on binary (or on hexadecimal) values of equal width return the value of the corresponding unsigned modular / bitwise operation at that width (concat: the sum of widths; division by zero: all ones, remainder by zero: the dividend); different widths or categories do not evaluate (except concat, which accepts different widths).", "quantifier": "all widths, all bit-vector values, all operators", "why_tests_cant": "The domain is infinite; a test suite samples finitely many values and cannot exclude a wrong one between samples.", "anchors": ["src/literal.cpp: Literal::evaluate, allSameKind, allSameBitWidth", "src/util/bitvector.cpp"]}
{"id": "C04", "title": "eo::extract returns exactly the requested slice", "statement": "For a binary or string value t of length n and numerals i, j: (eo::extract t i j) is the slice of positions i..min(j,n-1), empty if i<0, j<0, or the range is empty. In particular the result is never longer than t.", "quantifier": "all literals t, all integers i, j", "why_tests_cant": "The domain is infinite; a test suite samples finitely many values and cannot exclude a wrong one between samples.", "anchors": ["src/literal.cpp: Literal::evaluate EVAL_EXTRACT", "src/util/bitvector.cpp: extract", "src/util/string.cpp: substr"]}
{"id": "C05", "title": "eo::find returns the least occurrence", "statement": "(eo::find s t) is the least index at which the string t occurs in s, and -1 exactly when it does not occur.", "quantifier": "all pairs of string values", "why_tests_cant": "The domain is infinite; a test suite samples finitely many values and cannot exclude a wrong one between samples.", "anchors": ["src/literal.cpp: Literal::evaluate EVAL_FIND", "src/util/string.cpp: String::find"]}
{"id": "C06", "title": "Conversion operators", "statement": "eo::to_z, eo::to_q, eo::to_bin and eo::to_str evaluate exactly on the documented categories and give the documented value: floor, embedding, value modulo 2^width, code point, printed form.", "quantifier": "all literals", "why_tests_cant": "The domain is infinite; a test suite samples finitely many values and cannot exclude a wrong one between samples.", "anchors": ["src/literal.cpp: Literal::evaluate EVAL_TO_INT/EVAL_TO_RAT/EVAL_TO_BIN/EVAL_TO_STRING"]}
{"id": "C07", "title": "Literal operators preserve well-formedness", "statement": "Every literal produced by any computational operator from well-formed literals is well formed: a bit-vector's value is below 2^width, a string's characters are code points below 196608; so equal values are always the same literal.", "quantifier": "all operators, all argument lists of well-formed literals, hence all finite compositions", "why_tests_cant": "An invariant over all compositions of operators; each test exercises one composition.", "anchors": ["src/literal.cpp: Literal::evaluate", "src/util/bitvector.cpp", "src/util/string.cpp"]}
{"id": "C08", "title": "String literals survive printing", "statement": "Parsing the printed form of a string value gives back that value: the escape sequences written by the printer are read back by the reader to the same code points.", "quantifier": "all strings over code points 0..196607", "why_tests_cant": "The domain is infinite; a test suite samples finitely many values and cannot exclude a wrong one between samples.", "anchors": ["src/util/string.cpp: String::toString, String::toInternal, addCharToInternal", "src/expr_parser.cpp: parseExpr STRING_LITERAL, unescapeString"]}
{"id": "C09", "title": "Double-quote escaping in string tokens", "statement": "Writing a string with every double quote doubled between double quotes yields one string token, whatever follows other than another double quote, and unescaping it gives the original characters.", "quantifier": "all sequences of ASCII characters other than the null character, all continuations of the input, all ways of buffering it", "why_tests_cant": "The domain is infinite; a test suite samples finitely many values and cannot exclude a wrong one between samples.", "anchors": ["src/lexer.cpp: computeNextToken", "src/expr_parser.cpp: unescapeString"]}
{"id": "C10", "title": "Binary and hexadecimal literals survive printing", "statement": "Printing a binary value and reading it back gives the same width and value; printing a hexadecimal value and reading it back gives the same width and value.", "quantifier": "all widths and values", "why_tests_cant": "The domain is infinite; a test suite samples finitely many values and cannot exclude a wrong one between samples.", "anchors": ["src/util/bitvector.cpp: BitVector(string,base), toString", "src/literal.cpp: Literal::toString"]}
{"id": "C11", "title": "eo::eq, eo::is_eq, eo::is_ok and eo::requires decide syntactic equality of values", "statement": "On ground arguments: eo::is_ok is true exactly on values; eo::eq evaluates exactly when both arguments are values and then decides syntactic equality; eo::is_eq always evaluates and is true exactly for two syntactically equal values; eo::requires returns its third argument exactly when eo::is_eq of the first two is true, and never evaluates otherwise.", "quantifier": "all ground argument terms", "why_tests_cant": "Quantifies over all terms.", "anchors": ["src/type_checker.cpp: evaluateLiteralOpInternal"]}
{"id": "C12", "title": "Category testers agree with their derived definitions", "statement": "For every value t, eo::is_z/is_q/is_bin/is_str/is_bool return exactly what the documented derived definitions return (e.g. eo::is_z t is eo::is_eq (eo::to_z t) t).", "quantifier": "all value terms t", "why_tests_cant": "Quantifies over all terms, including literals of every category and every non-literal value.", "anchors": ["src/type_checker.cpp: evaluateLiteralOpInternal", "src/literal.cpp: Literal::evaluate", "user_manual.md: Core operators"]}
{"id": "C13", "title": "eo::cmp is a strict total order; eo::hash is unique", "statement": "For any history of hash/compare requests: eo::cmp is irreflexive, transitive and total on distinct terms; the answer for a given pair never changes while both terms are alive; eo::hash gives different numerals to different terms and the same numeral to the same term.", "quantifier": "all interleavings of hash requests and term deletions", "why_tests_cant": "History-dependent: the order depends on which terms were hashed earlier.", "anchors": ["src/state.cpp: State::getHash, markDeleted", "src/type_checker.cpp: evaluateLiteralOpInternal EVAL_HASH/EVAL_COMPARE"]}
{"id": "C14", "title": "f-lists are faithful", "statement": "For an operator f with a nil terminator, reading the children of an f-list built from children t1..tn gives exactly t1..tn in order, so two f-lists are equal exactly when their child lists are; a term is recognised as an f-list exactly when it is built that way.", "quantifier": "all operators, all terms, all child lists", "why_tests_cant": "Quantifies over terms of arbitrary depth.", "anchors": ["src/type_checker.cpp: getNAryChildren, isNAryList, prependNAryChildren"]}
{"id": "C15", "title": "Right-associative list operators implement list operations", "statement": "For right-associative f: eo::cons, eo::list_concat, eo::list_len, eo::list_nth, eo::list_find, eo::list_rev, eo::list_erase, eo::list_erase_all and eo::list_setof return the f-list (or number) given by the corresponding mathematical operation on child lists; in particular the tail-sharing optimisation in erase/setof does not change results.", "quantifier": "all right-associative operators, all f-lists, all elements", "why_tests_cant": "The domain is infinite; a test suite samples finitely many values and cannot exclude a wrong one between samples.", "anchors": ["src/type_checker.cpp: evaluateLiteralOpInternal, evaluateListRevInternal, evaluateListEraseInternal, evaluateListSetOfInternal"]}
{"id": "C16", "title": "Multiset list operators", "statement": "eo::list_minclude, eo::list_meq, eo::list_diff and eo::list_inter compute multiset inclusion, equality, difference and intersection with the documented order and multiplicity of the remaining elements.", "quantifier": "all right-associative operators, all pairs of f-lists", "why_tests_cant": "The domain is infinite; a test suite samples finitely many values and cannot exclude a wrong one between samples.", "anchors": ["src/type_checker.cpp: evaluateListMIncludeInternal, evaluateListDiffInterInternal"]}
{"id": "C17", "title": "Left-associative list operators behave analogously to right-associative ones", "statement": "For left-associative f the list operators return the f-list given by the same mathematical operation on the child list (the manual: left associative evaluation is defined analogously).", "quantifier": "all left-associative operators, all f-lists", "why_tests_cant": "The domain is infinite; a test suite samples finitely many values and cannot exclude a wrong one between samples.", "anchors": ["src/type_checker.cpp: getNAryChildren, prependNAryChildren, evaluateLiteralOpInternal", "user_manual.md: List computations"]}
{"id": "C18", "title": "List operators do not evaluate on non-lists", "statement": "If a list argument is not an f-list, or f has no nil terminator, then no list operator evaluates; eo::list_singleton_elim returns the child of a one-element list and any other f-list unchanged.", "quantifier": "all operators, all terms", "why_tests_cant": "Negative property over all malformed terms.", "anchors": ["src/type_checker.cpp: evaluateLiteralOpInternal, isNAryList"]}
{"id": "C19", "title": "Handles are equal exactly when terms are structurally equal", "statement": "After any sequence of term constructions, two handles returned by the term manager are identical exactly when they denote the same kind with identical children (resp. the same literal of the same category, resp. the same symbol).", "quantifier": "all sequences of term constructions", "why_tests_cant": "History-dependent invariant of the node store.", "anchors": ["src/state.cpp: mkExprInternal, mkLiteralInternal", "src/expr_trie.cpp"]}
{"id": "C20", "title": "Garbage collection preserves uniqueness of handles", "statement": "Deleting unreferenced terms in any order never makes a live term unfindable: after any history of constructions and deletions, constructing a term that is still alive returns the same handle.", "quantifier": "all interleavings of constructions and deletions", "why_tests_cant": "Bugs appear only for particular orders of deletion and sharing of prefixes.", "anchors": ["src/expr_trie.cpp: ExprTrie::get, ExprTrie::remove", "src/state.cpp: markDeleted, mkExprInternal"]}
{"id": "C21", "title": "Ground and evaluatable flags are exact", "statement": "A term is reported ground exactly when no parameter (or unknown) occurs in it, and evaluatable exactly when it contains an occurrence of a program or of a builtin operator; in any order of flag computation and for any amount of sharing.", "quantifier": "all terms", "why_tests_cant": "Cached, iterative DAG computation over unbounded terms.", "anchors": ["src/expr.cpp: ExprValue::computeFlags, isGround, isEvaluatable"]}
{"id": "C22", "title": "Parameters of a term", "statement": "The set of parameters computed for a term contains exactly the parameters occurring in it, without repetition; the test for a parameter occurring in a term agrees with it.", "quantifier": "all terms", "why_tests_cant": "Iterative traversal of unbounded terms.", "anchors": ["src/expr.cpp: Expr::getVariables, Expr::hasVariable"]}
{"id": "C23", "title": "n-ary sugar desugars to the documented term", "statement": "An application of an operator marked :right-assoc, :left-assoc, :right-assoc-nil, :left-assoc-nil, :chainable, :pairwise or :arg-list to n arguments denotes the documented nested term for every n.", "quantifier": "all operators, all argument lists of every length", "why_tests_cant": "The domain is infinite; a test suite samples finitely many values and cannot exclude a wrong one between samples.", "anchors": ["src/state.cpp: mkApplyAttr", "user_manual.md: Declarations with attributes"]}
{"id": "C24", "title": "Desugared :right-assoc-nil applications are f-lists of their arguments", "statement": "If f is :right-assoc-nil, then (f t1 ... tn) is an f-list with children t1..tn, and an argument marked :list contributes its children (splicing) after evaluation.", "quantifier": "all argument lists, with any argument positions marked :list", "why_tests_cant": "The domain is infinite; a test suite samples finitely many values and cannot exclude a wrong one between samples.", "anchors": ["src/state.cpp: mkApplyAttr", "src/type_checker.cpp: evaluateLiteralOpInternal"]}
{"id": "C25", "title": "Non-singleton nil operators", "statement": "For f marked :right-assoc-non-singleton-nil, an application to one non-list argument denotes that argument itself; applications to two or more denote the f-list ending in nil.", "quantifier": "all argument lists", "why_tests_cant": "The domain is infinite; a test suite samples finitely many values and cannot exclude a wrong one between samples.", "anchors": ["src/state.cpp: mkApplyAttr", "src/type_checker.cpp: EVAL_LIST_SINGLETON_ELIM"]}
{"id": "C26", "title": "n-ary computational operators fold from the left", "statement": "An application of eo::add, eo::mul, eo::and, eo::or, eo::xor or eo::concat to n>=2 literals evaluates to the left fold of the binary operator, and evaluates exactly when every intermediate binary application does.", "quantifier": "all operators, all literal lists of length >= 2", "why_tests_cant": "The domain is infinite; a test suite samples finitely many values and cannot exclude a wrong one between samples.", "anchors": ["src/state.cpp: mkExpr", "src/literal.cpp: Literal::evaluate"]}
{"id": "C27", "title": "Pattern matching is sound", "statement": "If matching a pattern against a term succeeds, then replacing every parameter of the pattern by its binding gives exactly the term, and only parameters of the pattern are bound.", "quantifier": "all patterns and terms (arbitrary sharing, repeated parameters)", "why_tests_cant": "Quantifies over all terms; matching uses an explicit stack and a visited set.", "anchors": ["src/type_checker.cpp: TypeChecker::match"]}
{"id": "C28", "title": "Pattern matching is complete and deterministic", "statement": "If some substitution maps the pattern to the term then matching succeeds and finds that substitution on the parameters of the pattern; matching always terminates.", "quantifier": "all patterns, terms and substitutions", "why_tests_cant": "Negative results (no match) cannot be validated by examples.", "anchors": ["src/type_checker.cpp: TypeChecker::match"]}
{"id": "C29", "title": "Programs use the first matching case", "statement": "A program applied to values returns the instance of the right-hand side of the first case whose pattern matches; if no case matches, the application does not evaluate.", "quantifier": "all programs, all argument lists", "why_tests_cant": "Quantifies over all programs and arguments.", "anchors": ["src/type_checker.cpp: evaluateProgramInternal"]}
{"id": "C30", "title": "Programs are never run on stuck or non-ground arguments", "statement": "If some argument of a program application is not a value then the application is left unevaluated, whatever the cases of the program.", "quantifier": "all programs, all argument lists", "why_tests_cant": "Negative property over all programs.", "anchors": ["src/type_checker.cpp: evaluateProgramInternal"]}
{"id": "C31", "title": "Evaluation leaves values unchanged and is deterministic", "statement": "Evaluating a term containing no program, builtin operator or bound parameter returns it unchanged, in every context; evaluation has at most one result; the per-call memo tables do not change results.", "quantifier": "all terms, contexts and programs", "why_tests_cant": "Quantifies over all terms; depends on caching history.", "anchors": ["src/type_checker.cpp: TypeChecker::evaluate"]}
{"id": "C32", "title": "eo::ite is lazy", "statement": "Evaluating (eo::ite c a b) returns the evaluation of a if c evaluates to true and of b if c evaluates to false; the other branch is never evaluated (even if its evaluation would not terminate).", "quantifier": "all terms c, a, b and all programs", "why_tests_cant": "Includes diverging branches.", "anchors": ["src/type_checker.cpp: TypeChecker::evaluate EVAL_IF_THEN_ELSE"]}
{"id": "C33", "title": "The result of evaluation is fully reduced", "statement": "If evaluation returns a ground term then evaluating that term again returns the same term (nothing reducible is left).", "quantifier": "all terms and programs", "why_tests_cant": "Quantifies over programs.", "anchors": ["src/type_checker.cpp: TypeChecker::evaluate lines 690-720"]}
{"id": "C34", "title": "Accepted program cases produce closed results", "statement": "For every accepted program case, instantiating the right-hand side with the bindings of a successful match against ground arguments leaves no parameter.", "quantifier": "all accepted cases, all ground arguments", "why_tests_cant": "Quantifies over all accepted programs.", "anchors": ["src/expr_parser.cpp: typeCheckProgramPair, ensureBound, findFreeVar", "src/type_checker.cpp: evaluateProgramInternal"]}
{"id": "C35", "title": "A step's conclusion is what its rule computes", "statement": "A step is accepted only if the rule's program, applied to the step's arguments, stated conclusion (if :conclusion-explicit), discharged assumption (if :assumption) and premises in this order, evaluates to a fully reduced Bool term; the bound proof proves that term, and it equals the stated conclusion when one is given.", "quantifier": "all rules, all steps", "why_tests_cant": "Quantifies over all rules and steps.", "anchors": ["src/state.cpp: notifyStep", "src/cmd_parser.cpp: STEP/STEP_POP, DECLARE_RULE"]}
{"id": "C36", "title": "Rule requirements are enforced", "statement": "A step of a rule with :requires ((r1 s1) ... (rk sk)) succeeds only if, under the match, every pair evaluates to the same value.", "quantifier": "all rules, all argument lists", "why_tests_cant": "Negative property over all rules and arguments.", "anchors": ["src/state.cpp: mkRequires", "src/cmd_parser.cpp: DECLARE_RULE", "src/type_checker.cpp: EVAL_REQUIRES"]}
{"id": "C37", "title": "Only open assumptions support a proof", "statement": "Whenever assumption level is zero, every proof in scope proves a formula that is derivable by the declared rules from the formulas of the assume commands alone: local assumptions (assume-push) only contribute through a step-pop that discharges them.", "quantifier": "all command sequences", "why_tests_cant": "Soundness over all histories; a test exercises one proof.", "anchors": ["src/cmd_parser.cpp: ASSUME, ASSUME_PUSH, STEP, STEP_POP, PUSH, POP, RESET, PROGRAM", "src/state.cpp: pushAssumptionScope, popAssumptionScope, notifyStep"]}
{"id": "C38", "title": "Reference assertions bound the assumptions", "statement": "After a reference file was read, every assumption a proof can rely on at level zero is (up to the normalisation routine) one of the reference assertions, whatever commands follow.", "quantifier": "all command sequences and include structures", "why_tests_cant": "Depends on the whole history of commands.", "anchors": ["src/state.cpp: includeFile, addAssumption, addReferenceAssert", "src/main.cpp"]}
{"id": "C39", "title": "The verdict reports the use of :sorry rules", "statement": "After a run without errors the response is incomplete exactly when some executed step or step-pop used a rule marked :sorry, and correct otherwise.", "quantifier": "all command sequences", "why_tests_cant": "Depends on the whole history.", "anchors": ["src/main.cpp", "src/cmd_parser.cpp: STEP", "src/state.cpp: markProofRuleSorry, isProofRuleSorry"]}
{"id": "C40", "title": "Closing a scope restores the symbol table", "statement": "After a scope is opened, any sequence of bindings (with nested scopes) is made, and the scope is closed, every name resolves to what it resolved to before, and the overloads of every name are as before.", "quantifier": "all balanced sequences of bindings and nested scopes", "why_tests_cant": "History-dependent; shadowing and overloading interact.", "anchors": ["src/state.cpp: pushScope, popScope, bind, getVar"]}
{"id": "C41", "title": "Overload resolution picks the latest well-typed declaration", "statement": "An application of an overloaded name denotes the application of the most recently bound overload that is well typed for the arguments; if none is, the resolution fails.", "quantifier": "all overload lists and argument lists", "why_tests_cant": "The domain is infinite; a test suite samples finitely many values and cannot exclude a wrong one between samples.", "anchors": ["src/state.cpp: getOverloadInternal, mkExpr, bind"]}
{"id": "C42", "title": "Definitions of programs, attributes and literal types are final", "statement": "Once a program has a definition, a constant an attribute, a proof rule a name, or a literal category a type rule, no later command changes it to a different one.", "quantifier": "all command sequences", "why_tests_cant": "History property.", "anchors": ["src/state.cpp: markConstructorKind, defineProgram, bind", "src/type_checker.cpp: setLiteralTypeRule, getOrSetLiteralTypeRule", "src/cmd_parser.cpp: PROGRAM"]}
{"id": "C43", "title": "Bound variables are canonical", "statement": "Two bound variables created with the same name and the same ground type are the same term, with different name or type different terms, for any history of creations.", "quantifier": "all sequences of variable creations", "why_tests_cant": "History property.", "anchors": ["src/state.cpp: getBoundVar", "src/type_checker.cpp: EVAL_VAR, EVAL_IS_VAR"]}
{"id": "C44", "title": "Each file is processed at most once", "statement": "For any include structure (including cycles) each canonical path is parsed at most once, and processing terminates for finitely many files.", "quantifier": "all include graphs", "why_tests_cant": "Quantifies over all graphs.", "anchors": ["src/state.cpp: includeFile, markIncluded"]}
{"id": "C45", "title": "Applications are type checked against the declared type", "statement": "A function application is well typed only with exactly the declared number of arguments, whose types (or, for quoted parameters, the arguments themselves) match the declared argument types under one substitution; its type is the evaluated instance of the return type under that substitution.", "quantifier": "all functions, all argument lists", "why_tests_cant": "Quantifies over all terms and types.", "anchors": ["src/type_checker.cpp: getTypeAppInternal, getTypeInternal"]}
{"id": "C46", "title": "Types of well-typed terms are reduced", "statement": "The type reported for a term is never a ground term that still contains unevaluated computation.", "quantifier": "all terms", "why_tests_cant": "Quantifies over all terms.", "anchors": ["src/type_checker.cpp: getType"]}
{"id": "C47", "title": "Symbols survive printing", "statement": "Printing a symbol (with quoting when necessary) and reading it back gives the same symbol.", "quantifier": "all symbol names that can be read", "why_tests_cant": "The domain is infinite; a test suite samples finitely many values and cannot exclude a wrong one between samples.", "anchors": ["src/expr.cpp: quoteSymbol", "src/lexer.cpp: computeNextToken, tokenizeCurrentSymbol", "src/expr_parser.cpp: tokenStrToSymbol"]}
{"id": "C48", "title": "Tokenisation does not depend on input buffering", "statement": "For every input and every way of splitting it into read chunks (file buffer of any size or interactive), the token sequence is the same.", "quantifier": "all inputs, all chunkings", "why_tests_cant": "Boundary bugs occur only at particular offsets.", "anchors": ["src/lexer.h: readNextChar, nextChar, saveChar", "src/lexer.cpp: nextTokenInternal"]}
{"id": "C49", "title": "White space and comments are insignificant", "statement": "Inserting white space or comments between tokens does not change the token sequence.", "quantifier": "all inputs, all insertions", "why_tests_cant": "The domain is infinite; a test suite samples finitely many values and cannot exclude a wrong one between samples.", "anchors": ["src/lexer.cpp: computeNextToken"]}
{"id": "C50", "title": "No input is silently ignored", "statement": "Every command in the input up to end of file or exit is processed: the lexer reports end of file only at the real end of the input.", "quantifier": "all inputs as byte sequences", "why_tests_cant": "Quantifies over all byte sequences.", "anchors": ["src/lexer.h: readNextChar", "src/lexer.cpp: computeNextToken"]}
{"id": "C51", "title": "DAG printing preserves the term", "statement": "The let-bindings introduced when printing a shared term, when expanded, denote the original term, bindings refer only to earlier bindings.", "quantifier": "all terms with arbitrary sharing", "why_tests_cant": "Quantifies over all DAGs.", "anchors": ["src/expr.cpp: computeLetBinding, printDebug"]}
{"id": "C52", "title": "Applications are uniquely decomposable", "statement": "A curried application of a head to a list of arguments determines head and arguments; building and decomposing are inverse.", "quantifier": "all heads and argument lists", "why_tests_cant": "The domain is infinite; a test suite samples finitely many values and cannot exclude a wrong one between samples.", "anchors": ["src/state.cpp: mkApplyInternal", "src/expr.cpp: getFunctionType", "src/state.cpp: mkFunctionType"]}
{"id": "C53", "title": "File paths are normalised without changing the file they denote", "statement": "The path computed for an include denotes the same file as the path written, and textually different spellings of the same path through . and .. segments have the same canonical form.", "quantifier": "all path strings", "why_tests_cant": "The domain is infinite; a test suite samples finitely many values and cannot exclude a wrong one between samples.", "anchors": ["src/util/filesystem.cpp: makeCanonical, parentPath, append"]}
{"id": "C54", "title": "Boolean operators compute their truth tables", "statement": "On Boolean literals eo::and, eo::or and eo::xor of one or more arguments are conjunction, disjunction and parity, eo::not is negation, and a Boolean mixed with a literal of another category does not evaluate.", "quantifier": "all non-empty lists of Booleans, of any length", "why_tests_cant": "Any number of arguments; tests sample short lists.", "anchors": ["src/literal.cpp: Literal::evaluate", "src/state.cpp: mkExpr (n-ary literal operators)"]}
{"id": "C55", "title": "The value of a builtin operator has the type of its application", "statement": "If an application of a builtin operator is well typed and evaluates to a value, that value has the type the application was given.", "quantifier": "all operators, all argument lists, all literal type rules", "why_tests_cant": "Type preservation quantifies over all terms and type rules.", "anchors": ["src/type_checker.cpp: getLiteralOpType, evaluateLiteralOpInternal"]}
{"id": "C56", "title": "Applications of macros and programs are evaluated when built", "statement": "Applying a symbol defined with parameters to as many arguments denotes the value of its body with the parameters bound to the arguments; applying a defined program to arguments for which a case is selected denotes the value of that case; otherwise the application is left as written.", "quantifier": "all macros, programs and argument lists", "why_tests_cant": "Quantifies over all definitions and arguments.", "anchors": ["src/state.cpp: mkExpr"]}
{"id": "C57", "title": "A step-pop discharges the assumption it removes", "statement": "An accepted step-pop is an inference by a rule with :assumption, and the assumption pattern of the rule, instantiated by the same assignment as its arguments and premises, is the formula of the innermost assume-push that is still open.", "quantifier": "all command sequences, all rules with :assumption", "why_tests_cant": "Soundness of conditional proofs over all histories.", "anchors": ["src/state.cpp: notifyStep, pushAssumptionScope, popAssumptionScope, getCurrentAssumptions", "src/cmd_parser.cpp: STEP_POP, ASSUME_PUSH"]}
{"id": "C58", "title": "The lexer reads the lexical grammar", "statement": "An input that consists of lexemes (by the longest-match rules for symbols, keywords, numerals, decimals, rationals, binary and hexadecimal constants, strings and quoted symbols) separated by white space and comments is read as exactly these tokens; the tokens that are read from an input are a decomposition of it, and there is only one; reading always ends.", "quantifier": "all inputs, all ways of buffering them", "why_tests_cant": "The domain is infinite; a test suite samples finitely many values and cannot exclude a wrong one between samples.", "anchors": ["src/lexer.cpp: computeNextToken, tokenizeCurrentSymbol, parseCharList", "src/lexer.h: isCharacterClass, nextChar"]}
{"id": "C59", "title": "Expressions denote by lexical scoping", "statement": "In every state reached without (reset), a name used in an expression denotes its innermost visible binding; the variables of let and of binders are visible in the body and nowhere else, the terms of a let are read in the enclosing bindings, arguments are read from left to right, and an application denotes what its operator and arguments denote; an expression is accepted exactly if it has a denotation, the denotation is unique, and reading it leaves all names as they were.", "quantifier": "all command sequences without reset, all expressions of any depth", "why_tests_cant": "Shadowing and overloading interact at any nesting depth.", "anchors": ["src/expr_parser.cpp: parseExpr, parseLetVars, parseSymbol", "src/state.cpp: pushScope, popScope, bind"]}
{"id": "C60", "title": "Commands bind their own name only", "statement": "In every state reached without (reset), names resolve as the bindings made by the executed commands say: a declaration or definition binds its name to a new symbol or to the defined term, assume and step bind their name to a proof, assume-push and push open a scope, step-pop and pop close one, and parameters of declarations, programs and rules leave no binding behind.", "quantifier": "all command sequences without reset", "why_tests_cant": "History property over all commands.", "anchors": ["src/cmd_parser.cpp: parseNextCommand", "src/state.cpp: bind, pushScope, popScope"]}
{"id": "C61", "title": "Files are read outside assumptions", "statement": "In every run without errors, each command is one that is allowed in the file in which it occurs, every file is read while no assumption scope is open and has closed all scopes it opened at its end, a step-pop closes an open scope, and a reference file is not followed by another one unless a file was included in between.", "quantifier": "all include structures and command sequences", "why_tests_cant": "Depends on the whole history of commands over all files.", "anchors": ["src/state.cpp: includeFile, popAssumptionScope", "src/cmd_parser.cpp: INCLUDE, REFERENCE, STEP_POP, d_table"]}
{"id": "C62", "title": "Formulas are Boolean", "statement": "The formulas written in an accepted assume, assume-push, assert or step command have type Bool, and every name that an accepted assume, assume-push, step or step-pop binds proves a formula of type Bool.", "quantifier": "all states and commands", "why_tests_cant": "The domain is infinite; a test suite samples finitely many values and cannot exclude a wrong one between samples.", "anchors": ["src/expr_parser.cpp: parseFormula, typeCheck", "src/cmd_parser.cpp: ASSUME, ASSERT, STEP", "src/state.cpp: notifyStep"]}
{"id": "C63", "title": "Declared types are types", "statement": "The type of a symbol declared by an accepted declare-const or declare-fun command is the one that is written; its type is Type, and it contains no computation unless it is open (argument types of declare-fun: none at all). An accepted define-const command binds its name to a term of the type that is written.", "quantifier": "all states and commands", "why_tests_cant": "The domain is infinite; a test suite samples finitely many values and cannot exclude a wrong one between samples.", "anchors": ["src/expr_parser.cpp: parseType, parseTypeList, typeCheck", "src/cmd_parser.cpp: DECLARE_CONST, DECLARE_FUN, DEFINE_CONST"]}
{"id": "C64", "title": "Datatype declarations declare what they say", "statement": "An accepted declare-datatype or declare-datatypes command gives every type listed a definition and binds its name to a new type constructor with as many arguments as parameters; for each constructor it makes, new and bound to their names, selectors of type (-> D A), updaters (-> D A D), a tester (-> D Bool) and the constructor of type (-> A1 ... An D), or, when the argument types do not determine the parameters, one that asks for the datatype first; eo::dt_constructors and eo::dt_selectors then give the constructors and selectors in the declared order, ambiguous constructors annotated with the type asked for.", "quantifier": "all reachable states without reset and all declarations, in which the type constructors are not overloaded and the builtin lists are not either", "why_tests_cant": "The domain is infinite; a test suite samples finitely many values and cannot exclude a wrong one between samples.", "anchors": ["src/expr_parser.cpp: parseDatatypesDef, parseConstructorDefinitionList", "src/cmd_parser.cpp: DECLARE_DATATYPE", "src/state.cpp: mkDisambiguatedType", "src/type_checker.cpp: EVAL_DT_CONSTRUCTORS, EVAL_DT_SELECTORS"]}
{"id": "C65", "title": "Expressions are read by the grammar", "statement": "Reading an expression from the tokens of a file succeeds exactly if the tokens begin with an expression of the grammar (a symbol, plain or quoted, a literal, Type, Bool, an application, a qualified application, a binder with at least one variable, let or eo::define, an annotated term whose attributes are not those of the language) that can be read where it stands; the result is the term it denotes by lexical scoping, and the tokens after it remain unread. Otherwise an error is reported.", "quantifier": "all sequences of lexemes without null characters, shorter than 2^30 characters and without control characters in strings, all options and all reachable states", "why_tests_cant": "The domain is infinite; a test suite samples finitely many values and cannot exclude a wrong one between samples.", "anchors": ["src/expr_parser.cpp: parseExpr, parseAttributeList, parseSymbolicExpr, parseAndBindSortedVarList, parseAndBindLetList", "src/lexer.cpp: eatToken, peekToken, reinsertToken"]}
{"id": "C66", "title": "Literals denote their values", "statement": "The literal read from a token is the one that is written: a numeral in decimal notation with an optional sign, a decimal or a fraction as an exact rational number, a hexadecimal or binary constant with its width and value, a string with the code points of its escape sequences (a backslash that begins none stands for itself). Options and the kind of the file decide only whether numerals and decimals become rationals and hexadecimal constants binary ones.", "quantifier": "all literal tokens", "why_tests_cant": "The domain is infinite; a test suite samples finitely many values and cannot exclude a wrong one between samples.", "anchors": ["src/expr_parser.cpp: parseExpr (literals), unescapeString", "src/state.cpp: mkLiteral", "src/util/string.cpp: toInternal", "src/util/rational.cpp: fromDecimal", "src/util/bitvector.cpp"]}
{"id": "C67", "title": "Commands are read by the grammar", "statement": "Reading a command from the tokens of a file succeeds, up to its closing parenthesis, exactly if the tokens are the name of a command that is allowed in the file (a reference or not) and its parts in the order and notation of the grammar, and the command can be executed; the effect is that of the command that is written, and the tokens after it remain unread. Nothing that is not a command of the grammar is accepted.", "quantifier": "all sequences of lexemes without null characters, all states, all kinds of files", "why_tests_cant": "The domain is infinite; a test suite samples finitely many values and cannot exclude a wrong one between samples.", "anchors": ["src/cmd_parser.cpp: parseNextCommand, nextCommandToken", "src/expr_parser.cpp: parseAndBindSortedVarList, parseAttributeList, parseDatatypesDef, parseExprPair, parseIntegerNumeral, parseSymbolicExpr"]}
{"id": "C68", "title": "A run on texts is a run on the commands written in them", "statement": "Reading a file executes the commands of the grammar that are written in it, in order, each as a whole, up to the end of the text or the first exit, after which nothing is looked at; an option on the reading of literals holds from the next command on, the one for let from the next file that is opened; files named by include and reference are found relative to the file that names them, are read at most once and at that point, as signatures or as references. A run is accepted exactly if all of this succeeds, and then its final state and response are those of the run on the lists of commands written in the files, so that the theorems about runs hold for the texts.", "quantifier": "all files, all texts whose lexemes are complete, without null and control characters, all nestings of files, all options", "why_tests_cant": "The domain is infinite; a test suite samples finitely many values and cannot exclude a wrong one between samples.", "anchors": ["src/cmd_parser.cpp: parseNextCommand", "src/state.cpp: includeFile, Options::setOption", "src/parser.cpp: Parser, setFileInput", "src/main.cpp: main"]}
{"id": "C69", "title": "Printed terms are read back", "statement": "After any sequence of events without a reset, the text printed for a term, with or without definitions for shared subterms, is split into tokens and read, in the same state, as an expression for this very term, whatever follows the text; so two terms with the same text are the same. This holds for every term in which each symbol is visible under its name, each literal is printed in a form that is read as it, and each printed application has, where it is read, the meaning of the application it is printed for (no attributes that give it another meaning).", "quantifier": "all histories of events without reset, all terms of the class, all lexer flags, buffer sizes and bounds above a limit, with and without definitions", "why_tests_cant": "The domain is infinite; a test suite samples finitely many values and cannot exclude a wrong one between samples.", "anchors": ["src/expr.cpp:Expr::printDebug", "src/expr.cpp:Expr::computeLetBinding", "src/expr.cpp:quoteSymbol", "src/expr_parser.cpp:ExprParser::parseExpr", "src/lexer.cpp:Lexer::nextTokenInternal"]}
{"id": "C70", "title": "The command line determines the run", "statement": "A run of the program is determined by its arguments: every option has the last value given for it on the command line, also if files to include come before it; the files given by --include and --reference are read in the order in which they are given, before the input; the input is the one remaining argument, or the standard input if there is none and it is not a terminal; --help and --show-config end the program before any file is read, and two inputs, a missing trace tag or traces in a build without them are errors. The program answers correct or incomplete exactly if all the files can be read under these options, and the answer is that of the run.", "quantifier": "all lists of arguments, all file systems and standard inputs", "why_tests_cant": "The domain is infinite; a test suite samples finitely many values and cannot exclude a wrong one between samples.", "anchors": ["src/main.cpp:main", "src/state.cpp:Options::setOption", "src/state.cpp:State::includeFile"]}
{"id": "C71", "title": "Types do not depend on the types asked for before", "statement": "The type of a term, or that it has none, is the same whether its types and those of its subterms are taken from the table in which types are kept or computed anew, and so is independent of which terms have been typed before and in which order; a type once entered is not changed by typing other terms.", "quantifier": "all environments, terms and sequences of requests for types", "why_tests_cant": "The domain is infinite; a test suite samples finitely many values and cannot exclude a wrong one between samples.", "anchors": ["src/type_checker.cpp:TypeChecker::getType", "src/type_checker.cpp:TypeChecker::getTypeInternal", "src/state.cpp:State::lookupType"]}
{"id": "C72", "title": "Later commands do not change the meaning of existing terms", "statement": "The type of a term, the value it evaluates to and the result of a built-in operator on terms do not depend on commands executed after the term was made: whatever is declared, assumed, proved or included later, they stay the same, as long as no program that had been declared without definition is defined and no category of literals is given its type. The same holds for the conclusion of a proof rule without premise list from given premises and arguments, and for the entries of the table of types.", "quantifier": "all command sequences before, all command sequences after, all terms and contexts made of symbols that existed in between", "why_tests_cant": "The domain is infinite; a test suite samples finitely many values and cannot exclude a wrong one between samples.", "anchors": ["src/state.cpp:State::markConstructorKind", "src/state.cpp:State::mkSymbol", "src/state.cpp:State::defineProgram", "src/state.cpp:State::notifyStep", "src/type_checker.cpp:TypeChecker::getType", "src/type_checker.cpp:TypeChecker::evaluate", "src/type_checker.cpp:TypeChecker::evaluateLiteralOpInternal"]}
{"id": "C73", "title": "The outcome of a run does not depend on a limit", "statement": "If the program gives an answer, prints an error or shows the help when evaluations, type computations and included files may be nested up to some depths, it does the same for all greater depths: no answer, no error and no state comes about because a limit was reached, and there is at most one outcome for given arguments, files and standard input. The same holds for every command and every expression that is read.", "quantifier": "all arguments, files, standard inputs, states and commands; all pairs of bounds on the nesting of evaluations and files", "why_tests_cant": "The domain is infinite; a test suite samples finitely many values and cannot exclude a wrong one between samples.", "anchors": ["src/state.cpp:State::includeFile", "src/cmd_parser.cpp:CmdParser::parseNextCommand", "src/expr_parser.cpp:ExprParser::parseExpr", "src/type_checker.cpp:TypeChecker::evaluate", "src/type_checker.cpp:TypeChecker::getType", "src/main.cpp:main"]}
{"id": "C74", "title": "Types of parameterized constants", "statement": "An accepted declare-parameterized-const binds its name to a new constant whose type takes one argument for each explicit parameter, in order, the opaque ones first: the argument itself (quoted) if the parameter occurs in the result type or in the type of a later argument, and then the type of the parameter is closed, otherwise a term of the type of the parameter. If a parameter of the result does not occur in the types of the arguments, the constant has no opaque arguments and is ambiguous: it takes its result type as an argument, and a program that matches it computes the declared type.", "quantifier": "all runs of commands, all parameter lists with any attributes, all result types", "why_tests_cant": "The domain is infinite; a test suite samples finitely many values and cannot exclude a wrong one between samples.", "anchors": ["src/cmd_parser.cpp: DECLARE_PARAMETERIZED_CONST", "src/state.cpp: mkDisambiguatedType, mkFunctionType", "src/expr_parser.cpp: findFreeVar, parseAndBindSortedVarList"]}
{"id": "C75", "title": "Printing with definitions shares exactly what occurs more than once", "statement": "When a term is printed with definitions (printDag), the subterms that get a definition are exactly those that have parts themselves and are a part of the different subterms in more than one place; the definition of each stands for the text of that subterm; it is referred to once for each of these places; and every different subterm is written once, so that the output is linear in the number of different subterms and their parts even if the term is exponentially larger.", "quantifier": "all terms, names, types of variables (in which no variable occurs in its own type)", "why_tests_cant": "The domain is infinite; a test suite samples finitely many values and cannot exclude a wrong one between samples.", "anchors": ["src/expr.cpp: Expr::computeLetBinding, Expr::printDebug, Expr::printDebugInternal"]}
{"id": "C76", "title": "The list operators agree with their definitions as programs", "statement": "In a state in which the programs of eo-definitions.eo are declared, an application of a defined list operator ($eo_eq, $eo_cons, $eo_list_len, $eo_list_rev, $eo_list_setof, $eo_list_singleton_elim, $eo_list_erase, $eo_list_erase_all, $eo_list_find, $eo_list_nth, $eo_list_concat, $eo_list_diff, $eo_list_inter, $eo_list_minclude, $eo_list_meq) has a value exactly if the application of the builtin operator to the same arguments has one, and then the same: programs evaluated by pattern matching compute what the C++ loops compute. This includes arguments that are no lists, for which neither has a value.", "quantifier": "all list operators with a nil terminator, all arguments (lists of fewer than 2^32 elements), all contexts", "why_tests_cant": "Equivalence of recursive programs with native loops quantifies over lists of all lengths; the tests compare a few.", "anchors": ["tests/eo-definitions.eo", "tests/eo-definitions-test.eo", "src/type_checker.cpp: evaluateLiteralOpInternal, evaluateProgramInternal, evaluate", "src/expr.cpp: match"]}
{"id": "C77", "title": "No undefined behaviour", "statement": "Evaluating a term, applying an operator, a program or a rule and computing a type read no vector outside its bounds and use no missing object, whatever they compute and however long they run, if all builtin operators in the terms involved and in the terms kept in the state have the number of arguments they take; the results are such terms again. The number of arguments an operator takes is the one that is checked when the operator is applied.", "quantifier": "all states, terms, bindings, operators, programs and numbers of steps", "why_tests_cant": "Reads outside a vector happen silently and depend on the memory layout; tests run on inputs of the right shape, and nothing checks the shapes that evaluation builds on the way.", "anchors": ["src/type_checker.cpp: evaluate, evaluateLiteralOpInternal, evaluateProgramInternal, getTypeInternal, getTypeAppInternal, computeConstructorTermInternal, checkArity", "src/literal.cpp: evaluate", "src/state.cpp: mkExpr, mkApplyAttr, notifyStep"]}
{"id": "C78", "title": "The choice of symbols does not matter", "statement": "If symbols are exchanged for others of the same kind, everywhere in the state, the terms and the bindings, then evaluating a term, applying an operator or a program, computing a type and building a term give the result with the symbols exchanged, or none, as before: no result depends on which symbol was made first, on how symbols are identified or on how parameters of programs are chosen; a check that evaluates to a literal has the same value. The names of parameters, programs and rules are not used in these computations at all; only those of constants and variables are, by eo::nameof.", "quantifier": "all states, terms, bindings, operators, programs, exchanges of symbols and numbers of steps", "why_tests_cant": "Quantifies over all programs and all ways of naming symbols; a test fixes one.", "anchors": ["src/type_checker.cpp: match, evaluate, evaluateProgramInternal, evaluateLiteralOpInternal, getTypeInternal, getTypeAppInternal, computeConstructorTermInternal", "src/state.cpp: mkExpr, mkApplyAttr, getOverloadInternal"]}
{"id": "C79", "title": "Binding parameters is substituting for them", "statement": "The value of a term under bindings depends only on the bindings of parameters that occur in it; it is the value of the term in which the bound parameters are replaced, simultaneously, by what they are bound to (if that has nothing to evaluate), and it makes no difference whether arguments are evaluated before or after they are put in the place of parameters. So a program applied to values has the value of the right-hand side of the first matching case with the parameters replaced as the match says, and an applied macro that of its body with the parameters replaced by the arguments. Terms in which each eo::ite has three arguments.", "quantifier": "all states, terms, bindings, programs, macros and arguments", "why_tests_cant": "Quantifies over all terms and bindings; the evaluation stack, the maps of visited terms and the cache of calls are what could break it.", "anchors": ["src/type_checker.cpp: evaluate, evaluateProgramInternal", "src/state.cpp: mkExpr"]}
{"id": "C80", "title": "Reset forgets the names and nothing else", "statement": "After (reset) no name denotes anything, there are no assumptions and no open scopes; rules, the types and attributes of terms, literal types, reference assertions and the set of files already read are kept, so a file read before is not read again, and an answer that became incomplete stays incomplete. Afterwards names and expressions have the meanings given by the commands after the reset alone.", "quantifier": "all executions, and all commands and expressions after a reset", "why_tests_cant": "Quantifies over all executions before and after the reset; a field that is forgotten to be cleared shows only after particular later declarations.", "anchors": ["src/state.cpp: reset, bind, popScope", "src/cmd_parser.cpp: RESET"]}
{"id": "C81", "title": "Declarations give constants their attributes", "statement": "An accepted declaration of a constant with attributes makes a new symbol of the declared type that has exactly one of the attributes: the one that takes precedence in a fixed order, and of several of the same kind the first; its argument is what the written expression denotes, abstracted over the parameters in it. A declaration without attributes gives none, no other term is affected, and the attribute stays for the rest of the run, so that applications are desugared by it.", "quantifier": "all executions, declarations and lists of attributes", "why_tests_cant": "Quantifies over all lists of attributes in any order and over all later commands.", "anchors": ["src/expr_parser.cpp: parseAttributeList, processAttributeMap", "src/state.cpp: markConstructorKind", "src/cmd_parser.cpp: DECLARE_CONST, DECLARE_PARAMETERIZED_CONST"]}
{"id": "C82", "title": "Programs and macros mean what their definitions say", "statement": "After an accepted definition of a program under a name that was free, or that stood for a program without attributes, the program is, for the rest of the run, defined by the written cases in the written order: applied to values it has the value of the right-hand side of the first case whose patterns they are an instance of, with the parameters replaced accordingly, and it is left as it is if there is none. After an accepted definition of a macro its application denotes the value of what the written body denotes where the parameters are visible, with the parameters replaced by the arguments.", "quantifier": "all executions, definitions, later executions and arguments (values for programs)", "why_tests_cant": "Quantifies over all definitions, all later commands and all arguments.", "anchors": ["src/cmd_parser.cpp: PROGRAM, DEFINE", "src/state.cpp: defineProgram, getProgram, mkExpr", "src/type_checker.cpp: evaluateProgramInternal, match"]}
{"id": "C83", "title": "Literals have the type declared for their category", "statement": "An accepted declaration of the type of a category of literals sets it to what the written type denotes where eo::self is visible in addition. It is the only type ever declared for this category, and nothing else is changed for other categories, attributes, programs and rules. For the rest of the run the type of a literal of the category is the declared type if this has no parameters, and otherwise the value of the declared type with the literal in the place of eo::self. Literals of categories without a declared type have an unknown type, and Booleans have type Bool whatever is declared.", "quantifier": "all executions without a reset before the declaration, all declarations, later executions and literals", "why_tests_cant": "Quantifies over all types that can be declared, all literals and all later commands.", "anchors": ["src/cmd_parser.cpp: DECLARE_CONSTS", "src/type_checker.cpp: setLiteralTypeRule, getOrSetLiteralTypeRule, getTypeInternal"]}
{"id": "C84", "title": "Correct steps are accepted", "statement": "A step that names a declared rule is accepted if some formula of Boolean type is the conclusion of an instance of the rule for the arguments, premises and stated conclusion of the step and the assumption it discharges: for one assignment of the parameters the patterns of the rule are these terms, which are values, both sides of each requirement evaluate to the same value, and the conclusion evaluates to the formula, which is the stated one if there is one. The name of the step then proves this formula. With C35 this says which steps are accepted and what they prove.", "quantifier": "all executions, declared rules whose patterns do not contain the unknown type, and steps", "why_tests_cant": "Quantifies over all rules, assignments and premises.", "anchors": ["src/state.cpp: notifyStep", "src/cmd_parser.cpp: STEP, STEP_POP, DECLARE_RULE", "src/type_checker.cpp: evaluateProgram, match"]}
