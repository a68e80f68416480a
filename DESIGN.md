# Formal model of the Ethos proof checker — design

Source: `/repo` (C++). Model: Lean 4, `/verif/lean/Verif/`.

Layout

* `Verif/Model/*.lean` – the model. Every definition cites the C++ file and lines it models and says where it simplifies.
* `Verif/Spec/*.lean`  – small specifications written independently of the model's helper functions.
* `Verif/Lemmas/*.lean` – auxiliary lemmas (not part of the claims).
* `Verif/Props/*.lean` – the property theorems `Cnn_…`, each followed by `example`s showing that a concrete non-trivial case meets its hypotheses; counterexample theorems (`…_refuted`, `…_fails_…`) where the code violates the English property.
* `properties.jsonl` – the English properties; `MANIFEST.json` – property → theorems; `AXIOMS.md` – the axioms of every theorem named there; `seeded/LOG.jsonl` – the wrong programs the theorems were tested against; `tools/` – the scripts that generate these files.

## Trusted base

* Lean 4.33.0's kernel; the axioms `propext`, `Classical.choice`, `Quot.sound` at most (`AXIOMS.md`, produced by `tools/axioms.py` with `#print axioms`). No axiom is added, no `sorry`, no `native_decide`/`bv_decide`, no `implemented_by`, no `unsafe`.
* The claim that the Lean definitions transcribe the cited C++ lines. This is by inspection: the code cannot be run here. As a check of the transcription (a test, not part of any proof) `tools/difftest.py` runs the model of reading and executing a file on the project's own regression files: of the 171 files `tests/*.eo`, 166 give the expected response `correct`, one (`eo-definitions.eo`) is meant to be included by another file and is an error on its own in the model, and four (`eo-arg-ex`, `pf-substitution`, `pf-substitution-large`, `skolemize-v2`) do not finish in five minutes because the model does not cache evaluation.
* GMP integers/rationals are taken to be exact (`Int`, `Rat`); `std::map`, `std::set`, `std::unordered_map`, `std::vector` are taken to implement finite maps / sets / lists; memory allocation never fails; a freshly allocated node has an address different from every live node.

## The model

| module | code | abstractions |
|---|---|---|
| `Util`, `Literal` | `util/{integer,rational,bitvector,string}`, `literal.cpp` | strings of the code are lists of bytes, `String` a list of code points; 32-bit wrap-around is modelled where the code uses `uint32_t`/`size_t` conversions that can be reached |
| `Kind`, `Term` | `kind.{h,cpp}`, `attr.{h,cpp}`, `expr.{h,cpp}` | handles are identified with the terms they denote, which C19/C20 justify |
| `Flags` | `computeFlags`, `getVariables`, `hasVariable` | the explicit stacks and visited sets are kept |
| `Match`, `Eval`, `ListOps` | `type_checker.cpp` 39–1878 | explicit stacks are kept; `evaluate`/`getType`/operators are one step over a record of recursive calls, `ops env n` ties the knot; running out of `n` is the outcome `fuel`, which no property counts as a result; reading out of bounds is the outcome `ub`; types are computed anew at each request (the table of types is in `TypeCache`, see C71); the list operators report `ub` whenever an argument is missing (the code: only if it is read) |
| `Store` | `state.cpp` 359–450, 604–627, 922–988, 1234–1249, 1606–1617, `expr.cpp` 22–40, 116–160, `expr_trie.h` | heap, reference counts, tries, literal table, tables keyed by terms; arbitrary allocator |
| `Desugar` | `State::mkExpr`, `mkApplyAttr` and what they call | warnings left out |
| `Scope`, `Decl` | symbol table, overloads, scopes; attributes, programs, literal rules, bound variables | tables are functions |
| `Parse` | `expr_parser.cpp` 114–903, 967–1310, builtin symbols of the constructor of `State` | input is a tree (`SExp`), not a token list |
| `Reader` | `expr_parser.cpp` 63–91, 114–467, 574–595, 613–692, 967–1090, `lexer.cpp` 117–180, `state.cpp` 849–870 | the input is the list of tokens with their characters; the stack of `parseExpr` is kept |
| `CmdReader` | `cmd_parser.cpp` 34–1078, `expr_parser.cpp` 469–612, 693–966 | the commands of `Command` read from tokens, part by part in the order of the code; the file of `include` and `reference` is read by the caller |
| `TextRun` | `parser.cpp` 13–50, `state.cpp` 33–80, 281–346, `cmd_parser.cpp` 93–100, 1075–1078, `main.cpp` 130–205 | runs on the texts of files, with the options that matter for reading |
| `TypeCache` | `type_checker.cpp` 91–145 with `state.cpp` 1654–1662 | the loop of `getType` with its stack, its visited set and the table; the entries made by nested requests during evaluation are a parameter |
| `CommandLine` | `main.cpp` 21–219, `state.cpp` 18–80 | arguments, options and the whole program; statistics and traces are not output |
| `Command` | `cmd_parser.cpp` 76–1080, `state.cpp` 83–346, 452–545, 889–918, 1374–1592, `main.cpp` 130–205 | commands are trees; a file is named by its canonical path; see *Not modelled* |
| `Lexer` | `lexer.{h,cpp}`, `tokenStrToSymbol`, `unescapeString`, `quoteSymbol` | positions, messages and the stack of peeked tokens left out; signedness of `char` is a parameter |
| `Print` | `expr.cpp` 203–445 | references to shared terms are kept as pieces of their own in the list of pieces; the types of variables are taken not to be null |
| `Path` | `util/filesystem.cpp` without `USE_CPP_FILESYSTEM` | `exists` always holds |

## Property by property

| id | model | proof |
|----|-------|-------|
| C01 | `Integer::euclidianQR` with its sign adjustments as written | case analysis against `a = d*q+r ∧ 0≤r<|d|` plus uniqueness |
| C02 | `Literal::evaluate` on `Int`/`Rat` | unfold; compare with a spec table |
| C03 | `BitVector` as (size, value) with the code's arithmetic | compare with Lean core's `BitVec` operations |
| C04 | EXTRACT, both string and bit-vector branch | slice spec on lists / `Nat.testBit` |
| C05 | `String::find` (std::search) | least-index spec |
| C06 | conversions | case analysis, spec per category |
| C07 | `Literal::evaluate` | well-formedness invariant, induction over operator trees |
| C08, C09 | `String::toString` / `toInternal` state machine, string branch of the lexer, `unescapeString` | round trip by induction on the string |
| C10 | `BitVector::toString` / constructor from string | digit induction |
| C11, C12, C54 | `evaluateLiteralOpInternal` | case analysis against an independent spec |
| C13 | `State::getHash` as a state machine with deletions | invariant over histories |
| C14–C18 | list operators as written (accumulators, reverse iteration, tail sharing) | refinement to `List` functions (`Spec/Lists`) |
| C19, C20 | `ExprTrie`, `mkExprInternal`, `mkLiteralInternal`, `ExprTrie::remove` | invariant over all histories of client operations, any allocator |
| C21, C22 | `computeFlags`, `getVariables`, `hasVariable` as iterative traversals | refinement to structural recursion |
| C23–C26 | `mkApplyAttr`, `mkExpr` | the relation `Spec.AppForm`, induction on the argument list |
| C27, C28 | `match` as a stack machine with visited set | invariant + termination measure |
| C29–C32 | `evaluateProgramInternal`, `evaluate` | the big-step relation of `Spec/Eval`, in both directions |
| C33 | all runs of commands, then `evaluate` | induction on evaluation; a run that gives a reducible result refutes the full statement |
| C34 | `typeCheckProgramPair`, `findFreeVar`, `exec` | free parameters under substitution; an invariant of runs that keeps `eo::self` out of all terms but the type rules of literals |
| C35, C36, C57 | all runs of commands, `notifyStep` | invariant tying the tables of the checker to the commands executed; instances of rules in `Spec/Rule` |
| C37 | all runs of commands | `Spec/Derive`: natural deduction with the declared rules; simulation of the stack of assumptions |
| C38, C61 | `includeFile`, reference files, `assume` | invariant over runs, `Spec/Reference`, `Spec/Nest` |
| C39 | `main.cpp`, `notifyStep` | induction on runs |
| C40–C44 | `bind`, `pushScope`, `popScope`, `getOverloadInternal`, `markConstructorKind`, `getBoundVar`, `includeFile` | refinement to a stack of scopes (`Spec/Scope`), invariants over operation lists |
| C45, C46, C52, C55 | `getTypeAppInternal`, `getType`, `mkFunctionType` | case analysis on top of C27/C28; induction on evaluation; C46 for runs: an invariant of every command (`Lemmas/SymTypes.lean`) that the types given to symbols are reduced, except that an application of an overloaded type constructor in the definition of its datatype is not covered |
| C47–C50, C58 | lexer, `quoteSymbol` | the grammar `Spec/Lexer`, induction on the input |
| C51 | `computeLetBinding`, `printDebug` | induction on the order of definitions; references are expanded by `Spec/Print` |
| C53 | `filesystem.cpp` | denotation of paths in a file system (`Spec/Path`), induction on segments |
| C56 | `mkExpr` on macros and programs | C31 on the terms built |
| C59 | `parseExpr` on all expressions | the relation `Spec.Elab` with lexical scoping and no symbol table |
| C60 | all commands | the relation `Spec.Effect` |
| C62, C63 | `parseFormula`, `parseType`, `notifyStep` in all commands | inversion of the command, `Spec/Checked` |
| C64 | `parseDatatypesDef`, `parseConstructorDefinitionList`, `mkDisambiguatedType`, the operators on datatypes | the declaration as data (`Spec/Datatype`), induction on the definitions, invariant of reachable states |
| C65 | `parseExpr` with its explicit stack, on tokens (`Model/Reader`) | the grammar `Spec.Written`; soundness by induction on the bound, completeness by induction on the grammar, both against `parseExpr` on trees; C59 for what the trees denote |
| C66 | the literal cases of `parseExpr`, `mkLiteral`, `fromDecimal`, `toInternal` | the notation `Spec.LitTok`, by cases of the lexical grammar |
| C67 | `parseNextCommand` on tokens, up to the closing parenthesis (`Model/CmdReader`) | the grammar `Spec.Body`; every part is a reader that agrees with the grammar and the function on trees (`Lemmas.Reads`), combined for each command |
| C68 | runs on texts (`Model/TextRun`) | the relations `Spec.FileRun`, `Spec.Included` and `Spec.InputRun` on top of the grammar of C67, by induction on the number of tokens and the nesting of files; the run on the commands written in the texts (`C68_run`) is found by following the text run |
| C69 | `printDebug` (`Model/Print`), the lexer and `parseExpr` on tokens (`Model/Reader`) | the text of each piece is a lexeme (`Lexes`), the tokens are those of an expression of the grammar, and it denotes the term (C59, C65); definitions by induction on their order (`back_defs`) |
| C70 | `main` on arguments (`Model/CommandLine`) | the grammar `Spec.Line` of arguments; induction on the arguments for the loop; with C68 for the files |
| C71 | the loop of `getType` over the table of types (`Model/TypeCache`) | every entry is the type found without the table (`Spec.Faithful`), by induction on the bound for what is returned and on the term for that it is returned; the invariant: a visited term has an entry or is larger |
| C72 | `State.env`, `exec`, `ops` | evaluation and typing of a term read the environment only at the symbols the term can reach (`Lemmas/Agree`: two environments that agree on a set closed under evaluation give the same results, by induction on the bound); commands keep what is stored about existing symbols (`Lemmas/Later`, an instance of the invariant of `Lemmas/World`) |
| C73 | all functions with a bound, from `ops` to `program` | the order `fuel ≤ r` on outcomes; every function is monotone in its bounds (`Lemmas/RunMono` for commands, `Lemmas/ReadMono` for texts), by induction on the structure of its input |
| C74 | `execDeclareParam`, `paramTypes`, `mkDisambiguatedType` | a specification by positions (`Spec/Param`) of which arguments are quoted; induction on the parameters from the last to the first, with the invariants of runs that keep parameters leaves and `eo::self` out |
| C75 | `computeLetBinding`, `printDebug` | an invariant of the first loop (what is counted plus what is on the stack is the number of places in the visited terms); every term with parts is written with exactly one definition or the body, by counting places from the root downwards |
| C76 | tests/eo-definitions.eo: the programs defining the list operators; `evaluateLiteralOpInternal`, `evaluateProgramInternal` | the result of each program by induction on the list, from the rules for programs (C32) and operators (C31); then both sides have the value given by C15, C16, C18. The programs are data here (`ListDefs`): Props/ListDefsExample.lean runs the commands of the file in the model and shows that the state reached meets `ListDefs` and the other hypotheses |
| C77 | the outcome `ub` of all functions of type_checker.cpp and literal.cpp and of `State::mkExpr` and what it calls (reads outside vectors, missing objects); `Spec/Safety` says which terms and states have operators with their number of arguments | an invariant of the evaluation stack (a term that was met waits below the terms it still needs, which are smaller, so that their values are there when it is met again), operator by operator for the vectors; induction on the bound. The full claim is refuted by concrete runs |
| C78 | all of `Model/Eval` and `Model/Desugar`; `Spec/Rename`: a permutation of the symbols of each kind, the state with the symbols exchanged (types, attributes, definitions, overloads, hashes and the symbols made by the state move along) | every function of the model commutes with the exchange, for all outcomes; the evaluation stack step by step, then induction on the bound. `C78_names`: two states that differ in names of other symbols than constants and variables give the same functions |
| C79 | `evaluate` with its bindings, programs and macros; `subst` of `Spec/Term` | on the big-step relation of C31, which the evaluation machine computes: by induction on the term, both directions |
| C80 | `State::reset`, and `bind`, `popScope` and all commands after it | the table after `reset` refines the empty stack of scopes if no name is overloaded; then as C59 and C60. The verdict by the invariant of C39 |
| C81 | the attributes of `declare-const` and `declare-parameterized-const` | reading them by the relation of C59, the choice by induction on the list, persistence from C42; with C23 and C24 for what the attribute does |
| C82 | `program` and `define` from the command to the evaluation of applications | the definition of the symbol from C34 and the scopes, its persistence from C42; the value of applications from C29, C56 and C79; the body of a macro by the relation of C59 |
| C83 | `declare-consts`, `setLiteralTypeRule`, the types of literals | the meaning of the type by the relation of C59, its persistence from C42; the type of a literal by unfolding one step of the type checker; the substitution for `eo::self` from C79 |
| C84 | `step`, `step-pop`, `notifyStep`, from the declaration of the rule on | the converse of C35: the declaration is kept (`Keeps`), the program of the rule matches by C28 and C29, nested `eo::requires` evaluate to the conclusion by C11; bounded computations by monotonicity |

All properties can be expressed in a model. `MANIFEST.json` says which are proved in full and what is missing of the others.

## Not modelled

Plugins (`src/plugin.h`, C++ code generation), statistics, tracing/warning output, the effect of options other than those in `TextOpts`, timing, the text of error messages; the option `rule-sym-table` when off; symbolic links; the default type rules of literals recorded by `getOrSetLiteralTypeRule` (`declare-consts` in the model is accepted more often than by the code); overflow of the 32 bit reference count; exceptions; the order in which `Expr::operator=` drops and takes references.

## Where the code disagrees with a property

Each of these is a theorem about the model with a concrete witness; the property keeps a theorem (usually `_partial`) that covers the rest.

| property | disagreement | theorem |
|---|---|---|
| C01 | for a negative divisor the result is the Euclidean quotient, not the floor the manual speaks of | `C01_floor_refuted` |
| C03 | the width of a concatenation is computed in 32 bits | `C03_concat_refuted` |
| C04 | `eo::extract` of a bit-vector with the upper index equal to the width gives one bit too many | `C04_bits_refuted` |
| C05 | positions above 2^32 wrap | `C05_wraps` |
| C06 | `eo::to_str` evaluates on numerals that are no code points | `C06_to_str_refuted` |
| C08 | `"` is not doubled when a string is printed | `C08_quote_refuted` |
| C10 | leading zero digits of hexadecimal literals are not printed | `C10_hex_refuted` |
| C13 | `eo::hash` converts the 64 bit hash to 32 bits, so two live terms can get the same numeral | `C13_fails_collision` |
| C14 | a nil terminator that is itself an application of the operator is taken apart | `C14_nil_refuted` |
| C17 | `eo::list_rev`, `_concat`, `_erase`, `_setof`, `_diff` on left-associative lists give other lists than the analogous right-associative ones | `C17_{rev,concat,erase,setof,diff}_refuted` |
| C20 | `ExprTrie::remove` erases a whole branch, including the entry of a live term whose children are a prefix of those of the deleted term (`PROGRAM_TYPE`, tuples, any kind with a variable number of children); building the live term again gives a second handle | `C20_fails_duplicate` |
| C20 | deleting that live term afterwards dereferences an end iterator | `C20_fails_ub` |
| C20 | `et->d_data = nullptr` after the erase writes to freed memory | `C20_fails_dangling` |
| C20 | `free(e)` does not run the destructor, so children are never reclaimed (a leak, harmless for the other claims) | `C20_leak` |
| C24 | `:list` arguments of a left-associative operator are spliced in reverse order | `C24_left_splice_refuted` |
| C33 | a right-hand side without parameters is returned as read, so evaluation can return a reducible term | `C33_refuted` |
| C35 | a rule with nothing to match accepts any arguments and premises, and applies its conclusion to them | `C35_refuted` |
| C37 | accepted runs that prove `false`: `push` within an assumption scope, `reset` within one, a program defined later, `declare-consts` after the formula was read | `C37_{push,reset,program,consts}_refuted`, `C37_refuted` |
| C38 | assumptions within `assume-push` are not compared with the reference; including another file turns the comparison off | `C38_{nested,nested_proof,include,file}_refuted` |
| C40, C41 | `reset` keeps overloads, and the end of a later scope resurrects them | `C40_reset_refuted`, `C41_reset_refuted` |
| C41 | overload resolution with parametric nil terminators, constants under `eo::as`, terms bound under two names | `C41_{parametric,as_constant,alias}_refuted` |
| C41 | the manual says that the first declared symbol that gives a well-typed term is used and recommends to declare unary minus before subtraction; the code uses the last one, so `(- a)` is then a partial application of subtraction. C41 states what the code does | `C41_manual_refuted` |
| C47 | some quoted names are printed in a form that is read differently or not at all | `C47_refuted` |
| C48, C50 | the byte 255 is taken for the end of the input (signed `char`) | `C48_refuted`, `C50_byte_refuted` |
| C49, C50 | the character after a keyword of one letter is dropped | `C49_keyword_refuted`, `C50_keyword_refuted` |
| C50 | a null character ends a token | `C50_null_refuted` |
| C51 | a symbol named `_v0` cannot be told from a reference | `C51_capture_refuted` |
| C53 | blanks are trimmed from one of two paths only; `/..` and a last segment `.` or `..` are not normalised | `C53_blank_refuted`, `C53_spelling_refuted` |
| C55 | `eo::ite` with branches of different types, `eo::concat` with types that depend on widths, `eo::zdiv` on bit-vectors | `C55_{ite,concat,zdiv}_refuted` |
| C55 | list operators when the elements and the lists have different types | `C55_list_refuted` |
| C57 | a `step-pop` with another number of arguments than declared drops the assumption without discharging it | `C57_refuted`, `C57_drop_refuted` |
| C64 | the name of `(declare-datatype D (par …))` is bound in the scope of the parameters and lost at its end | `C64_type_name_refuted` |
| C64 | `declare-datatypes` with fewer definitions than names is accepted | `C64_definition_refuted` |
| C65 | a closing parenthesis where an expression is expected reads the last element of an empty vector | `C65_close_refuted` |
| C66 | control characters of a string, such as newlines, are dropped | `C66_control_refuted` |
| C67 | numbers of arguments and scopes can be negative or too large: `(declare-sort S -1)` has 2^32 - 1 arguments | `C67_numeral_refuted` |
| C67 | a step can end with any keyword: `(step s :rule r :xy)` | `C67_keyword_refuted` |
| C67 | a skipped value can begin with a closing parenthesis: `(set-info :xy )()` is one command | `C67_value_refuted` |
| C69 | `f c d` is printed as `(_ (f c) d)`, which is another term if `f` has an attribute like `:right-assoc-nil` | `C69_attribute_refuted` |
| C69 | decimals, hexadecimal constants with leading zeros and strings with double quotes are printed in a form that is read differently or not at all | `C69_literal_refuted` |
| C69 | an applied variable is printed as `((eo::var "x" T) c)`, which is no expression | `C69_variable_refuted` |
| C70 | an unknown option that is the only argument that is not an option is taken for the name of the input | `C70_unknown_refuted` |
| C71 | the type of a term with a type computed by a declared program changes when the program is defined; if the term was typed before and is still in use, the old type is kept, otherwise the new one is found | `C71_definition_refuted` |
| C77 | operators with a wrong number of arguments are accepted in definitions and program bodies and read out of bounds when these are applied; `eo::extract` is accepted with two arguments; `(->)` and `(as)` without arguments, a chainable operator whose combining operator cannot be determined and an empty premise list for an operator without attribute use what is missing | `C77_{define,body,extract,arrow,as,chain,premises}_refuted` |
| C79 | parameters in an `eo::ite` that has not three arguments are not replaced | `C79_malformed_refuted` |
| C80 | `reset` does not clear the overloads: a name overloaded before has its old meanings back when it is overloaded again | `C80_overloads_refuted` |
| C80 | `reset` removes the builtin operators from the symbol table | `C80_fresh_refuted` |

Observed when reading the code and not stated as theorems: `eo::to_bin` accepts negative numerals; `-.5` and `-/5` are literal tokens; decimals are printed as `(! q :decimal)`; `popScope` does not undo changes made to the attributes of overloaded symbols; the type `Proof` can be named through `eo::typeof`; the disambiguation programs of `mkDisambiguatedType` are not checked for free parameters; an unknown keyword after `:rule R` or after the premises of a step is ignored; `(push -1)` is read as 4294967295 scopes.

## The term store (C13, C19, C20)

`Model/Store.lean` has a heap of nodes, reference counts, one trie per kind, the literal table, the maps keyed by terms (`d_typeCache`, `d_appData`, `d_hashMap`), and client operations: build an application, a literal or a symbol, copy and destroy a handle, attach an expression to a term, ask for a hash. The allocator is arbitrary, in particular it may reuse the address of a deleted node. `Lemmas/Store.lean` states the invariant (counts at least the number of references, references only to live nodes, sound tries, unique literals and symbols, unique hashes) and shows that the deletion loop preserves it.

## Runs of commands (C33, C35–C39, C42, C57, C60–C64)

A run is a list of events: a file entered, an `include` skipped because the file was read before, or a command executed. `replay` executes such a list from the state of the constructor; the relation `Spec.Reads` says which lists a set of files gives rise to, and C44 shows that an accepted run of the process executes such a list. The part of the environment that no command determines (the types and terms of builtin symbols, the symbols evaluation makes on the fly) is the parameter `b : Env` constrained by `Spec.BaseOk`; the instance `exB` with `exB_ok` shows that the constraint can be met.

Theorems about runs hold for all lists of events. The concrete runs used in refutations and examples are evaluated by the kernel (`decide +kernel`), which is a check of one literal run, used only where the claim itself is about one run.
