import json
P=[]
def p(id,title,statement,quant,why,anchors):
    P.append(dict(id=id,title=title,statement=statement,quantifier=quant,why_tests_cant=why,anchors=anchors))
T="src/type_checker.cpp"; L="src/literal.cpp"; S="src/state.cpp"; E="src/expr.cpp"; C="src/cmd_parser.cpp"; X="src/expr_parser.cpp"; LX="src/lexer.cpp"
inf="The domain is infinite; a test suite samples finitely many values and cannot exclude a wrong one between samples."
p("C01","Integer division and remainder are exact","For numerals a and d with d nonzero, (eo::zdiv a d)=q and (eo::zmod a d)=r evaluate, a = d*q + r and 0 <= r < |d| (Euclidean division); for d = 0 neither evaluates.","all integers a and d",inf,[L+": Literal::evaluate EVAL_INT_DIV/EVAL_INT_MOD","src/util/integer.cpp: euclidianQR, euclidianDivideQuotient, euclidianDivideRemainder"])
p("C02","Arithmetic on numerals, decimals and rationals is exact and never mixes categories","eo::add, eo::mul, eo::neg, eo::qdiv, eo::is_neg and eo::gt applied to arithmetic values of one category return the mathematically exact result in the documented category; arguments of different categories, or a zero divisor of eo::qdiv, leave the term unevaluated.","all operators, all pairs of arithmetic literals",inf,[L+": Literal::evaluate","src/util/integer.h","src/util/rational.h"])
p("C03","Bit-vector operators agree with modular arithmetic","eo::add/mul/neg/not/and/or/xor/zdiv/zmod/concat on binary (or on hexadecimal) values of equal width return the value of the corresponding unsigned modular / bitwise operation at that width (concat: the sum of widths; division by zero: all ones, remainder by zero: the dividend); different widths or categories do not evaluate (except concat, which accepts different widths).","all widths, all bit-vector values, all operators",inf,[L+": Literal::evaluate, allSameKind, allSameBitWidth","src/util/bitvector.cpp"])
p("C04","eo::extract returns exactly the requested slice","For a binary or string value t of length n and numerals i, j: (eo::extract t i j) is the slice of positions i..min(j,n-1), empty if i<0, j<0, or the range is empty. In particular the result is never longer than t.","all literals t, all integers i, j",inf,[L+": Literal::evaluate EVAL_EXTRACT","src/util/bitvector.cpp: extract","src/util/string.cpp: substr"])
p("C05","eo::find returns the least occurrence","(eo::find s t) is the least index at which the string t occurs in s, and -1 exactly when it does not occur.","all pairs of string values",inf,[L+": Literal::evaluate EVAL_FIND","src/util/string.cpp: String::find"])
p("C06","Conversion operators","eo::to_z, eo::to_q, eo::to_bin and eo::to_str evaluate exactly on the documented categories and give the documented value: floor, embedding, value modulo 2^width, code point, printed form.","all literals",inf,[L+": Literal::evaluate EVAL_TO_INT/EVAL_TO_RAT/EVAL_TO_BIN/EVAL_TO_STRING"])
p("C07","Literal operators preserve well-formedness","Every literal produced by any computational operator from well-formed literals is well formed: a bit-vector's value is below 2^width, a string's characters are code points below 196608; so equal values are always the same literal.","all operators, all argument lists of well-formed literals, hence all finite compositions","An invariant over all compositions of operators; each test exercises one composition.",[L+": Literal::evaluate","src/util/bitvector.cpp","src/util/string.cpp"])
p("C08","String literals survive printing","Parsing the printed form of a string value gives back that value: the escape sequences written by the printer are read back by the reader to the same code points.","all strings over code points 0..196607",inf,["src/util/string.cpp: String::toString, String::toInternal, addCharToInternal",X+": parseExpr STRING_LITERAL, unescapeString"])
p("C09","Double-quote escaping in string tokens","Writing a string with every double quote doubled between double quotes yields one string token, whatever follows other than another double quote, and unescaping it gives the original characters.","all sequences of ASCII characters other than the null character, all continuations of the input, all ways of buffering it",inf,[LX+": computeNextToken","src/expr_parser.cpp: unescapeString"])
p("C10","Binary and hexadecimal literals survive printing","Printing a binary value and reading it back gives the same width and value; printing a hexadecimal value and reading it back gives the same width and value.","all widths and values",inf,["src/util/bitvector.cpp: BitVector(string,base), toString",L+": Literal::toString"])
p("C11","eo::eq, eo::is_eq, eo::is_ok and eo::requires decide syntactic equality of values","On ground arguments: eo::is_ok is true exactly on values; eo::eq evaluates exactly when both arguments are values and then decides syntactic equality; eo::is_eq always evaluates and is true exactly for two syntactically equal values; eo::requires returns its third argument exactly when eo::is_eq of the first two is true, and never evaluates otherwise.","all ground argument terms","Quantifies over all terms.",[T+": evaluateLiteralOpInternal"])
p("C12","Category testers agree with their derived definitions","For every value t, eo::is_z/is_q/is_bin/is_str/is_bool return exactly what the documented derived definitions return (e.g. eo::is_z t is eo::is_eq (eo::to_z t) t).","all value terms t","Quantifies over all terms, including literals of every category and every non-literal value.",[T+": evaluateLiteralOpInternal",L+": Literal::evaluate","user_manual.md: Core operators"])
p("C13","eo::cmp is a strict total order; eo::hash is unique","For any history of hash/compare requests: eo::cmp is irreflexive, transitive and total on distinct terms; the answer for a given pair never changes while both terms are alive; eo::hash gives different numerals to different terms and the same numeral to the same term.","all interleavings of hash requests and term deletions","History-dependent: the order depends on which terms were hashed earlier.",[S+": State::getHash, markDeleted",T+": evaluateLiteralOpInternal EVAL_HASH/EVAL_COMPARE"])
p("C14","f-lists are faithful","For an operator f with a nil terminator, reading the children of an f-list built from children t1..tn gives exactly t1..tn in order, so two f-lists are equal exactly when their child lists are; a term is recognised as an f-list exactly when it is built that way.","all operators, all terms, all child lists","Quantifies over terms of arbitrary depth.",[T+": getNAryChildren, isNAryList, prependNAryChildren"])
p("C15","Right-associative list operators implement list operations","For right-associative f: eo::cons, eo::list_concat, eo::list_len, eo::list_nth, eo::list_find, eo::list_rev, eo::list_erase, eo::list_erase_all and eo::list_setof return the f-list (or number) given by the corresponding mathematical operation on child lists; in particular the tail-sharing optimisation in erase/setof does not change results.","all right-associative operators, all f-lists, all elements",inf,[T+": evaluateLiteralOpInternal, evaluateListRevInternal, evaluateListEraseInternal, evaluateListSetOfInternal"])
p("C16","Multiset list operators","eo::list_minclude, eo::list_meq, eo::list_diff and eo::list_inter compute multiset inclusion, equality, difference and intersection with the documented order and multiplicity of the remaining elements.","all right-associative operators, all pairs of f-lists",inf,[T+": evaluateListMIncludeInternal, evaluateListDiffInterInternal"])
p("C17","Left-associative list operators behave analogously to right-associative ones","For left-associative f the list operators return the f-list given by the same mathematical operation on the child list (the manual: left associative evaluation is defined analogously).","all left-associative operators, all f-lists",inf,[T+": getNAryChildren, prependNAryChildren, evaluateLiteralOpInternal","user_manual.md: List computations"])
p("C18","List operators do not evaluate on non-lists","If a list argument is not an f-list, or f has no nil terminator, then no list operator evaluates; eo::list_singleton_elim returns the child of a one-element list and any other f-list unchanged.","all operators, all terms","Negative property over all malformed terms.",[T+": evaluateLiteralOpInternal, isNAryList"])
p("C19","Handles are equal exactly when terms are structurally equal","After any sequence of term constructions, two handles returned by the term manager are identical exactly when they denote the same kind with identical children (resp. the same literal of the same category, resp. the same symbol).","all sequences of term constructions","History-dependent invariant of the node store.",[S+": mkExprInternal, mkLiteralInternal","src/expr_trie.cpp"])
p("C20","Garbage collection preserves uniqueness of handles","Deleting unreferenced terms in any order never makes a live term unfindable: after any history of constructions and deletions, constructing a term that is still alive returns the same handle.","all interleavings of constructions and deletions","Bugs appear only for particular orders of deletion and sharing of prefixes.",["src/expr_trie.cpp: ExprTrie::get, ExprTrie::remove",S+": markDeleted, mkExprInternal"])
p("C21","Ground and evaluatable flags are exact","A term is reported ground exactly when no parameter (or unknown) occurs in it, and evaluatable exactly when it contains an occurrence of a program or of a builtin operator; in any order of flag computation and for any amount of sharing.","all terms","Cached, iterative DAG computation over unbounded terms.",[E+": ExprValue::computeFlags, isGround, isEvaluatable"])
p("C22","Parameters of a term","The set of parameters computed for a term contains exactly the parameters occurring in it, without repetition; the test for a parameter occurring in a term agrees with it.","all terms","Iterative traversal of unbounded terms.",[E+": Expr::getVariables, Expr::hasVariable"])
p("C23","n-ary sugar desugars to the documented term","An application of an operator marked :right-assoc, :left-assoc, :right-assoc-nil, :left-assoc-nil, :chainable, :pairwise or :arg-list to n arguments denotes the documented nested term for every n.","all operators, all argument lists of every length",inf,[S+": mkApplyAttr","user_manual.md: Declarations with attributes"])
p("C24","Desugared :right-assoc-nil applications are f-lists of their arguments","If f is :right-assoc-nil, then (f t1 ... tn) is an f-list with children t1..tn, and an argument marked :list contributes its children (splicing) after evaluation.","all argument lists, with any argument positions marked :list",inf,[S+": mkApplyAttr",T+": evaluateLiteralOpInternal"])
p("C25","Non-singleton nil operators","For f marked :right-assoc-non-singleton-nil, an application to one non-list argument denotes that argument itself; applications to two or more denote the f-list ending in nil.","all argument lists",inf,[S+": mkApplyAttr",T+": EVAL_LIST_SINGLETON_ELIM"])
p("C26","n-ary computational operators fold from the left","An application of eo::add, eo::mul, eo::and, eo::or, eo::xor or eo::concat to n>=2 literals evaluates to the left fold of the binary operator, and evaluates exactly when every intermediate binary application does.","all operators, all literal lists of length >= 2",inf,[S+": mkExpr",L+": Literal::evaluate"])
p("C27","Pattern matching is sound","If matching a pattern against a term succeeds, then replacing every parameter of the pattern by its binding gives exactly the term, and only parameters of the pattern are bound.","all patterns and terms (arbitrary sharing, repeated parameters)","Quantifies over all terms; matching uses an explicit stack and a visited set.",[T+": TypeChecker::match"])
p("C28","Pattern matching is complete and deterministic","If some substitution maps the pattern to the term then matching succeeds and finds that substitution on the parameters of the pattern; matching always terminates.","all patterns, terms and substitutions","Negative results (no match) cannot be validated by examples.",[T+": TypeChecker::match"])
p("C29","Programs use the first matching case","A program applied to values returns the instance of the right-hand side of the first case whose pattern matches; if no case matches, the application does not evaluate.","all programs, all argument lists","Quantifies over all programs and arguments.",[T+": evaluateProgramInternal"])
p("C30","Programs are never run on stuck or non-ground arguments","If some argument of a program application is not a value then the application is left unevaluated, whatever the cases of the program.","all programs, all argument lists","Negative property over all programs.",[T+": evaluateProgramInternal"])
p("C31","Evaluation leaves values unchanged and is deterministic","Evaluating a term containing no program, builtin operator or bound parameter returns it unchanged, in every context; evaluation has at most one result; the per-call memo tables do not change results.","all terms, contexts and programs","Quantifies over all terms; depends on caching history.",[T+": TypeChecker::evaluate"])
p("C32","eo::ite is lazy","Evaluating (eo::ite c a b) returns the evaluation of a if c evaluates to true and of b if c evaluates to false; the other branch is never evaluated (even if its evaluation would not terminate).","all terms c, a, b and all programs","Includes diverging branches.",[T+": TypeChecker::evaluate EVAL_IF_THEN_ELSE"])
p("C33","The result of evaluation is fully reduced","If evaluation returns a ground term then evaluating that term again returns the same term (nothing reducible is left).","all terms and programs","Quantifies over programs.",[T+": TypeChecker::evaluate lines 690-720"])
p("C34","Accepted program cases produce closed results","For every accepted program case, instantiating the right-hand side with the bindings of a successful match against ground arguments leaves no parameter.","all accepted cases, all ground arguments","Quantifies over all accepted programs.",[X+": typeCheckProgramPair, ensureBound, findFreeVar",T+": evaluateProgramInternal"])
p("C35","A step's conclusion is what its rule computes","A step is accepted only if the rule's program, applied to the step's arguments, stated conclusion (if :conclusion-explicit), discharged assumption (if :assumption) and premises in this order, evaluates to a fully reduced Bool term; the bound proof proves that term, and it equals the stated conclusion when one is given.","all rules, all steps","Quantifies over all rules and steps.",[S+": notifyStep",C+": STEP/STEP_POP, DECLARE_RULE"])
p("C36","Rule requirements are enforced","A step of a rule with :requires ((r1 s1) ... (rk sk)) succeeds only if, under the match, every pair evaluates to the same value.","all rules, all argument lists","Negative property over all rules and arguments.",[S+": mkRequires",C+": DECLARE_RULE",T+": EVAL_REQUIRES"])
p("C37","Only open assumptions support a proof","Whenever assumption level is zero, every proof in scope proves a formula that is derivable by the declared rules from the formulas of the assume commands alone: local assumptions (assume-push) only contribute through a step-pop that discharges them.","all command sequences","Soundness over all histories; a test exercises one proof.",[C+": ASSUME, ASSUME_PUSH, STEP, STEP_POP, PUSH, POP, RESET, PROGRAM",S+": pushAssumptionScope, popAssumptionScope, notifyStep"])
p("C38","Reference assertions bound the assumptions","After a reference file was read, every assumption a proof can rely on at level zero is (up to the normalisation routine) one of the reference assertions, whatever commands follow.","all command sequences and include structures","Depends on the whole history of commands.",[S+": includeFile, addAssumption, addReferenceAssert","src/main.cpp"])
p("C39","The verdict reports the use of :sorry rules","After a run without errors the response is incomplete exactly when some executed step or step-pop used a rule marked :sorry, and correct otherwise.","all command sequences","Depends on the whole history.",["src/main.cpp",C+": STEP",S+": markProofRuleSorry, isProofRuleSorry"])
p("C40","Closing a scope restores the symbol table","After a scope is opened, any sequence of bindings (with nested scopes) is made, and the scope is closed, every name resolves to what it resolved to before, and the overloads of every name are as before.","all balanced sequences of bindings and nested scopes","History-dependent; shadowing and overloading interact.",[S+": pushScope, popScope, bind, getVar"])
p("C41","Overload resolution picks the latest well-typed declaration","An application of an overloaded name denotes the application of the most recently bound overload that is well typed for the arguments; if none is, the resolution fails.","all overload lists and argument lists",inf,[S+": getOverloadInternal, mkExpr, bind"])
p("C42","Definitions of programs, attributes and literal types are final","Once a program has a definition, a constant an attribute, a proof rule a name, or a literal category a type rule, no later command changes it to a different one.","all command sequences","History property.",[S+": markConstructorKind, defineProgram, bind",T+": setLiteralTypeRule, getOrSetLiteralTypeRule",C+": PROGRAM"])
p("C43","Bound variables are canonical","Two bound variables created with the same name and the same ground type are the same term, with different name or type different terms, for any history of creations.","all sequences of variable creations","History property.",[S+": getBoundVar",T+": EVAL_VAR, EVAL_IS_VAR"])
p("C44","Each file is processed at most once","For any include structure (including cycles) each canonical path is parsed at most once, and processing terminates for finitely many files.","all include graphs","Quantifies over all graphs.",[S+": includeFile, markIncluded"])
p("C45","Applications are type checked against the declared type","A function application is well typed only with exactly the declared number of arguments, whose types (or, for quoted parameters, the arguments themselves) match the declared argument types under one substitution; its type is the evaluated instance of the return type under that substitution.","all functions, all argument lists","Quantifies over all terms and types.",[T+": getTypeAppInternal, getTypeInternal"])
p("C46","Types of well-typed terms are reduced","The type reported for a term is never a ground term that still contains unevaluated computation.","all terms","Quantifies over all terms.",[T+": getType"])
p("C47","Symbols survive printing","Printing a symbol (with quoting when necessary) and reading it back gives the same symbol.","all symbol names that can be read",inf,[E+": quoteSymbol",LX+": computeNextToken, tokenizeCurrentSymbol",X+": tokenStrToSymbol"])
p("C48","Tokenisation does not depend on input buffering","For every input and every way of splitting it into read chunks (file buffer of any size or interactive), the token sequence is the same.","all inputs, all chunkings","Boundary bugs occur only at particular offsets.",["src/lexer.h: readNextChar, nextChar, saveChar",LX+": nextTokenInternal"])
p("C49","White space and comments are insignificant","Inserting white space or comments between tokens does not change the token sequence.","all inputs, all insertions",inf,[LX+": computeNextToken"])
p("C50","No input is silently ignored","Every command in the input up to end of file or exit is processed: the lexer reports end of file only at the real end of the input.","all inputs as byte sequences","Quantifies over all byte sequences.",["src/lexer.h: readNextChar",LX+": computeNextToken"])
p("C51","DAG printing preserves the term","The let-bindings introduced when printing a shared term, when expanded, denote the original term, bindings refer only to earlier bindings.","all terms with arbitrary sharing","Quantifies over all DAGs.",[E+": computeLetBinding, printDebug"])
p("C52","Applications are uniquely decomposable","A curried application of a head to a list of arguments determines head and arguments; building and decomposing are inverse.","all heads and argument lists",inf,[S+": mkApplyInternal",E+": getFunctionType",S+": mkFunctionType"])
p("C53","File paths are normalised without changing the file they denote","The path computed for an include denotes the same file as the path written, and textually different spellings of the same path through . and .. segments have the same canonical form.","all path strings",inf,["src/util/filesystem.cpp: makeCanonical, parentPath, append"])
p("C54","Boolean operators compute their truth tables","On Boolean literals eo::and, eo::or and eo::xor of one or more arguments are conjunction, disjunction and parity, eo::not is negation, and a Boolean mixed with a literal of another category does not evaluate.","all non-empty lists of Booleans, of any length","Any number of arguments; tests sample short lists.",[L+": Literal::evaluate",S+": mkExpr (n-ary literal operators)"])
p("C55","The value of a builtin operator has the type of its application","If an application of a builtin operator is well typed and evaluates to a value, that value has the type the application was given.","all operators, all argument lists, all literal type rules","Type preservation quantifies over all terms and type rules.",[T+": getLiteralOpType, evaluateLiteralOpInternal"])
p("C56","Applications of macros and programs are evaluated when built","Applying a symbol defined with parameters to as many arguments denotes the value of its body with the parameters bound to the arguments; applying a defined program to arguments for which a case is selected denotes the value of that case; otherwise the application is left as written.","all macros, programs and argument lists","Quantifies over all definitions and arguments.",[S+": mkExpr"])
p("C57","A step-pop discharges the assumption it removes","An accepted step-pop is an inference by a rule with :assumption, and the assumption pattern of the rule, instantiated by the same assignment as its arguments and premises, is the formula of the innermost assume-push that is still open.","all command sequences, all rules with :assumption","Soundness of conditional proofs over all histories.",[S+": notifyStep, pushAssumptionScope, popAssumptionScope, getCurrentAssumptions",C+": STEP_POP, ASSUME_PUSH"])
p("C58","The lexer reads the lexical grammar","An input that consists of lexemes (by the longest-match rules for symbols, keywords, numerals, decimals, rationals, binary and hexadecimal constants, strings and quoted symbols) separated by white space and comments is read as exactly these tokens; the tokens that are read from an input are a decomposition of it, and there is only one; reading always ends.","all inputs, all ways of buffering them",inf,[LX+": computeNextToken, tokenizeCurrentSymbol, parseCharList","src/lexer.h: isCharacterClass, nextChar"])
p("C59","Expressions denote by lexical scoping","In every state reached without (reset), a name used in an expression denotes its innermost visible binding; the variables of let and of binders are visible in the body and nowhere else, the terms of a let are read in the enclosing bindings, arguments are read from left to right, and an application denotes what its operator and arguments denote; an expression is accepted exactly if it has a denotation, the denotation is unique, and reading it leaves all names as they were.","all command sequences without reset, all expressions of any depth","Shadowing and overloading interact at any nesting depth.",[X+": parseExpr, parseLetVars, parseSymbol",S+": pushScope, popScope, bind"])
p("C60","Commands bind their own name only","In every state reached without (reset), names resolve as the bindings made by the executed commands say: a declaration or definition binds its name to a new symbol or to the defined term, assume and step bind their name to a proof, assume-push and push open a scope, step-pop and pop close one, and parameters of declarations, programs and rules leave no binding behind.","all command sequences without reset","History property over all commands.",[C+": parseNextCommand",S+": bind, pushScope, popScope"])
p("C61","Files are read outside assumptions","In every run without errors, each command is one that is allowed in the file in which it occurs, every file is read while no assumption scope is open and has closed all scopes it opened at its end, a step-pop closes an open scope, and a reference file is not followed by another one unless a file was included in between.","all include structures and command sequences","Depends on the whole history of commands over all files.",[S+": includeFile, popAssumptionScope",C+": INCLUDE, REFERENCE, STEP_POP, d_table"])
p("C62","Formulas are Boolean","The formulas written in an accepted assume, assume-push, assert or step command have type Bool, and every name that an accepted assume, assume-push, step or step-pop binds proves a formula of type Bool.","all states and commands",inf,["src/expr_parser.cpp: parseFormula, typeCheck","src/cmd_parser.cpp: ASSUME, ASSERT, STEP","src/state.cpp: notifyStep"])
p("C63","Declared types are types","The type of a symbol declared by an accepted declare-const or declare-fun command is the one that is written; its type is Type, and it contains no computation unless it is open (argument types of declare-fun: none at all). An accepted define-const command binds its name to a term of the type that is written.","all states and commands",inf,["src/expr_parser.cpp: parseType, parseTypeList, typeCheck","src/cmd_parser.cpp: DECLARE_CONST, DECLARE_FUN, DEFINE_CONST"])
p("C64","Datatype declarations declare what they say","An accepted declare-datatype or declare-datatypes command gives every type listed a definition and binds its name to a new type constructor with as many arguments as parameters; for each constructor it makes, new and bound to their names, selectors of type (-> D A), updaters (-> D A D), a tester (-> D Bool) and the constructor of type (-> A1 ... An D), or, when the argument types do not determine the parameters, one that asks for the datatype first; eo::dt_constructors and eo::dt_selectors then give the constructors and selectors in the declared order, ambiguous constructors annotated with the type asked for.","all reachable states without reset and all declarations, in which the type constructors are not overloaded and the builtin lists are not either",inf,[X+": parseDatatypesDef, parseConstructorDefinitionList",C+": DECLARE_DATATYPE",S+": mkDisambiguatedType",T+": EVAL_DT_CONSTRUCTORS, EVAL_DT_SELECTORS"])
p("C65","Expressions are read by the grammar","Reading an expression from the tokens of a file succeeds exactly if the tokens begin with an expression of the grammar (a symbol, plain or quoted, a literal, Type, Bool, an application, a qualified application, a binder with at least one variable, let or eo::define, an annotated term whose attributes are not those of the language) that can be read where it stands; the result is the term it denotes by lexical scoping, and the tokens after it remain unread. Otherwise an error is reported.","all sequences of lexemes without null characters, shorter than 2^30 characters and without control characters in strings, all options and all reachable states",inf,[X+": parseExpr, parseAttributeList, parseSymbolicExpr, parseAndBindSortedVarList, parseAndBindLetList",LX+": eatToken, peekToken, reinsertToken"])
p("C66","Literals denote their values","The literal read from a token is the one that is written: a numeral in decimal notation with an optional sign, a decimal or a fraction as an exact rational number, a hexadecimal or binary constant with its width and value, a string with the code points of its escape sequences (a backslash that begins none stands for itself). Options and the kind of the file decide only whether numerals and decimals become rationals and hexadecimal constants binary ones.","all literal tokens",inf,[X+": parseExpr (literals), unescapeString",S+": mkLiteral","src/util/string.cpp: toInternal","src/util/rational.cpp: fromDecimal","src/util/bitvector.cpp"])
p("C67","Commands are read by the grammar","Reading a command from the tokens of a file succeeds, up to its closing parenthesis, exactly if the tokens are the name of a command that is allowed in the file (a reference or not) and its parts in the order and notation of the grammar, and the command can be executed; the effect is that of the command that is written, and the tokens after it remain unread. Nothing that is not a command of the grammar is accepted.","all sequences of lexemes without null characters, all states, all kinds of files",inf,[C+": parseNextCommand, nextCommandToken",X+": parseAndBindSortedVarList, parseAttributeList, parseDatatypesDef, parseExprPair, parseIntegerNumeral, parseSymbolicExpr"])
p("C68","A run on texts is a run on the commands written in them","Reading a file executes the commands of the grammar that are written in it, in order, each as a whole, up to the end of the text or the first exit, after which nothing is looked at; an option on the reading of literals holds from the next command on, the one for let from the next file that is opened; files named by include and reference are found relative to the file that names them, are read at most once and at that point, as signatures or as references. A run is accepted exactly if all of this succeeds, and then its final state and response are those of the run on the lists of commands written in the files, so that the theorems about runs hold for the texts.","all files, all texts whose lexemes are complete, without null and control characters, all nestings of files, all options",inf,[C+": parseNextCommand", S+": includeFile, Options::setOption", "src/parser.cpp: Parser, setFileInput", "src/main.cpp: main"])
p("C69","Printed terms are read back","After any sequence of events without a reset, the text printed for a term, with or without definitions for shared subterms, is split into tokens and read, in the same state, as an expression for this very term, whatever follows the text; so two terms with the same text are the same. This holds for every term in which each symbol is visible under its name, each literal is printed in a form that is read as it, and each printed application has, where it is read, the meaning of the application it is printed for (no attributes that give it another meaning).","all histories of events without reset, all terms of the class, all lexer flags, buffer sizes and bounds above a limit, with and without definitions",inf,[E+":Expr::printDebug",E+":Expr::computeLetBinding",E+":quoteSymbol","src/expr_parser.cpp:ExprParser::parseExpr","src/lexer.cpp:Lexer::nextTokenInternal"])
p("C70","The command line determines the run","A run of the program is determined by its arguments: every option has the last value given for it on the command line, also if files to include come before it; the files given by --include and --reference are read in the order in which they are given, before the input; the input is the one remaining argument, or the standard input if there is none and it is not a terminal; --help and --show-config end the program before any file is read, and two inputs, a missing trace tag or traces in a build without them are errors. The program answers correct or incomplete exactly if all the files can be read under these options, and the answer is that of the run.","all lists of arguments, all file systems and standard inputs",inf,["src/main.cpp:main",S+":Options::setOption",S+":State::includeFile"])
p("C71","Types do not depend on the types asked for before","The type of a term, or that it has none, is the same whether its types and those of its subterms are taken from the table in which types are kept or computed anew, and so is independent of which terms have been typed before and in which order; a type once entered is not changed by typing other terms.","all environments, terms and sequences of requests for types",inf,[T+":TypeChecker::getType",T+":TypeChecker::getTypeInternal",S+":State::lookupType"])
p("C72","Later commands do not change the meaning of existing terms","The type of a term, the value it evaluates to and the result of a built-in operator on terms do not depend on commands executed after the term was made: whatever is declared, assumed, proved or included later, they stay the same, as long as no program that had been declared without definition is defined and no category of literals is given its type. The same holds for the conclusion of a proof rule without premise list from given premises and arguments, and for the entries of the table of types.","all command sequences before, all command sequences after, all terms and contexts made of symbols that existed in between",inf,[S+":State::markConstructorKind",S+":State::mkSymbol",S+":State::defineProgram",S+":State::notifyStep",T+":TypeChecker::getType",T+":TypeChecker::evaluate",T+":TypeChecker::evaluateLiteralOpInternal"])
p("C73","The outcome of a run does not depend on a limit","If the program gives an answer, prints an error or shows the help when evaluations, type computations and included files may be nested up to some depths, it does the same for all greater depths: no answer, no error and no state comes about because a limit was reached, and there is at most one outcome for given arguments, files and standard input. The same holds for every command and every expression that is read.","all arguments, files, standard inputs, states and commands; all pairs of bounds on the nesting of evaluations and files",inf,[S+":State::includeFile",C+":CmdParser::parseNextCommand",X+":ExprParser::parseExpr",T+":TypeChecker::evaluate",T+":TypeChecker::getType","src/main.cpp:main"])
p("C74","Types of parameterized constants","An accepted declare-parameterized-const binds its name to a new constant whose type takes one argument for each explicit parameter, in order, the opaque ones first: the argument itself (quoted) if the parameter occurs in the result type or in the type of a later argument, and then the type of the parameter is closed, otherwise a term of the type of the parameter. If a parameter of the result does not occur in the types of the arguments, the constant has no opaque arguments and is ambiguous: it takes its result type as an argument, and a program that matches it computes the declared type.","all runs of commands, all parameter lists with any attributes, all result types",inf,[C+": DECLARE_PARAMETERIZED_CONST",S+": mkDisambiguatedType, mkFunctionType",X+": findFreeVar, parseAndBindSortedVarList"])
p("C75","Printing with definitions shares exactly what occurs more than once","When a term is printed with definitions (printDag), the subterms that get a definition are exactly those that have parts themselves and are a part of the different subterms in more than one place; the definition of each stands for the text of that subterm; it is referred to once for each of these places; and every different subterm is written once, so that the output is linear in the number of different subterms and their parts even if the term is exponentially larger.","all terms, names, types of variables (in which no variable occurs in its own type)",inf,[E+": Expr::computeLetBinding, Expr::printDebug, Expr::printDebugInternal"])
p("C76","The list operators agree with their definitions as programs","In a state in which the programs of eo-definitions.eo are declared, an application of a defined list operator ($eo_eq, $eo_cons, $eo_list_len, $eo_list_rev, $eo_list_setof, $eo_list_singleton_elim, $eo_list_erase, $eo_list_erase_all, $eo_list_find, $eo_list_nth, $eo_list_concat, $eo_list_diff, $eo_list_inter, $eo_list_minclude, $eo_list_meq) has a value exactly if the application of the builtin operator to the same arguments has one, and then the same: programs evaluated by pattern matching compute what the C++ loops compute. This includes arguments that are no lists, for which neither has a value.","all list operators with a nil terminator, all arguments (lists of fewer than 2^32 elements), all contexts","Equivalence of recursive programs with native loops quantifies over lists of all lengths; the tests compare a few.",["tests/eo-definitions.eo","tests/eo-definitions-test.eo",T+": evaluateLiteralOpInternal, evaluateProgramInternal, evaluate",E+": match"])
p("C77","No undefined behaviour","Evaluating a term, applying an operator, a program or a rule and computing a type read no vector outside its bounds and use no missing object, whatever they compute and however long they run, if all builtin operators in the terms involved and in the terms kept in the state have the number of arguments they take; the results are such terms again. The number of arguments an operator takes is the one that is checked when the operator is applied.","all states, terms, bindings, operators, programs and numbers of steps","Reads outside a vector happen silently and depend on the memory layout; tests run on inputs of the right shape, and nothing checks the shapes that evaluation builds on the way.",[T+": evaluate, evaluateLiteralOpInternal, evaluateProgramInternal, getTypeInternal, getTypeAppInternal, computeConstructorTermInternal, checkArity",L+": evaluate",S+": mkExpr, mkApplyAttr, notifyStep"])
p("C78","The choice of symbols does not matter","If symbols are exchanged for others of the same kind, everywhere in the state, the terms and the bindings, then evaluating a term, applying an operator or a program, computing a type and building a term give the result with the symbols exchanged, or none, as before: no result depends on which symbol was made first, on how symbols are identified or on how parameters of programs are chosen; a check that evaluates to a literal has the same value. The names of parameters, programs and rules are not used in these computations at all; only those of constants and variables are, by eo::nameof.","all states, terms, bindings, operators, programs, exchanges of symbols and numbers of steps","Quantifies over all programs and all ways of naming symbols; a test fixes one.",[T+": match, evaluate, evaluateProgramInternal, evaluateLiteralOpInternal, getTypeInternal, getTypeAppInternal, computeConstructorTermInternal",S+": mkExpr, mkApplyAttr, getOverloadInternal"])
p("C79","Binding parameters is substituting for them","The value of a term under bindings depends only on the bindings of parameters that occur in it; it is the value of the term in which the bound parameters are replaced, simultaneously, by what they are bound to (if that has nothing to evaluate), and it makes no difference whether arguments are evaluated before or after they are put in the place of parameters. So a program applied to values has the value of the right-hand side of the first matching case with the parameters replaced as the match says, and an applied macro that of its body with the parameters replaced by the arguments. Terms in which each eo::ite has three arguments.","all states, terms, bindings, programs, macros and arguments","Quantifies over all terms and bindings; the evaluation stack, the maps of visited terms and the cache of calls are what could break it.",[T+": evaluate, evaluateProgramInternal",S+": mkExpr"])
p("C80","Reset forgets the names and nothing else","After (reset) no name denotes anything, there are no assumptions and no open scopes; rules, the types and attributes of terms, literal types, reference assertions and the set of files already read are kept, so a file read before is not read again, and an answer that became incomplete stays incomplete. Afterwards names and expressions have the meanings given by the commands after the reset alone.","all executions, and all commands and expressions after a reset","Quantifies over all executions before and after the reset; a field that is forgotten to be cleared shows only after particular later declarations.",[S+": reset, bind, popScope",C+": RESET"])
p("C81","Declarations give constants their attributes","An accepted declaration of a constant with attributes makes a new symbol of the declared type that has exactly one of the attributes: the one that takes precedence in a fixed order, and of several of the same kind the first; its argument is what the written expression denotes, abstracted over the parameters in it. A declaration without attributes gives none, no other term is affected, and the attribute stays for the rest of the run, so that applications are desugared by it.","all executions, declarations and lists of attributes","Quantifies over all lists of attributes in any order and over all later commands.",[X+": parseAttributeList, processAttributeMap",S+": markConstructorKind",C+": DECLARE_CONST, DECLARE_PARAMETERIZED_CONST"])
p("C82","Programs and macros mean what their definitions say","After an accepted definition of a program under a name that was free, or that stood for a program without attributes, the program is, for the rest of the run, defined by the written cases in the written order: applied to values it has the value of the right-hand side of the first case whose patterns they are an instance of, with the parameters replaced accordingly, and it is left as it is if there is none. After an accepted definition of a macro its application denotes the value of what the written body denotes where the parameters are visible, with the parameters replaced by the arguments.","all executions, definitions, later executions and arguments (values for programs)","Quantifies over all definitions, all later commands and all arguments.",[C+": PROGRAM, DEFINE",S+": defineProgram, getProgram, mkExpr",T+": evaluateProgramInternal, match"])
p("C83","Literals have the type declared for their category","An accepted declaration of the type of a category of literals sets it to what the written type denotes where eo::self is visible in addition. It is the only type ever declared for this category, and nothing else is changed for other categories, attributes, programs and rules. For the rest of the run the type of a literal of the category is the declared type if this has no parameters, and otherwise the value of the declared type with the literal in the place of eo::self. Literals of categories without a declared type have an unknown type, and Booleans have type Bool whatever is declared.","all executions without a reset before the declaration, all declarations, later executions and literals","Quantifies over all types that can be declared, all literals and all later commands.",[C+": DECLARE_CONSTS",T+": setLiteralTypeRule, getOrSetLiteralTypeRule, getTypeInternal"])
p("C84","Correct steps are accepted","A step that names a declared rule is accepted if some formula of Boolean type is the conclusion of an instance of the rule for the arguments, premises and stated conclusion of the step and the assumption it discharges: for one assignment of the parameters the patterns of the rule are these terms, which are values, both sides of each requirement evaluate to the same value, and the conclusion evaluates to the formula, which is the stated one if there is one. The name of the step then proves this formula. With C35 this says which steps are accepted and what they prove.","all executions, declared rules whose patterns do not contain the unknown type, and steps","Quantifies over all rules, assignments and premises.",[S+": notifyStep",C+": STEP, STEP_POP, DECLARE_RULE",T+": evaluateProgram, match"])
with open('/verif/properties.jsonl','w') as f:
    for q in P: f.write(json.dumps(q)+"\n")
print(len(P))
