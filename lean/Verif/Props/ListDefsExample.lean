import Verif.Props.ListDefs
import Verif.Props.ListTypes
import Verif.Lemmas.CmdExample
/-
C76: the hypotheses are met after the commands of tests/eo-definitions-test.eo (up to the tests) and tests/eo-definitions.eo.
-/
namespace Ethos.Props
open Ethos Kind Spec

/-- tests/eo-definitions-test.eo:1-30 and tests/eo-definitions.eo -/
def defsCmds : List Cmd := [
  .declareConst (nm "Int") .type [],
  .declareConsts .NUMERAL (sy "Int"),
  .declareConst (nm "or") (ap "->" [.bool, .bool, .bool]) [{ attr := .RIGHT_ASSOC_NIL, val := some (sy "false") }],
  .declareConst (nm "and") (ap "->" [.bool, .bool, .bool]) [{ attr := .RIGHT_ASSOC_NIL, val := some (sy "true") }],
  .declareConst (nm "a") .bool [],
  .declareConst (nm "b") .bool [],
  .declareConst (nm "c") .bool [],
  .declareConst (nm "d") .bool [],
  .declareConst (nm "eo_List") .type [],
  .declareConst (nm "eo_List_nil") (sy "eo_List") [],
  .declareParam (nm "eo_List_cons") [{ name := nm "T", type := .type, attrs := [.implicit] }] (ap "->" [(sy "T"), (sy "eo_List"), (sy "eo_List")]) [{ attr := .RIGHT_ASSOC_NIL, val := some (sy "eo_List_nil") }],
  .program (nm "$eo_nil") [{ name := nm "T", type := .type }, { name := nm "U", type := .type }, { name := nm "V", type := .type }, { name := nm "W", type := .type }, { name := nm "Any", type := .type }] [(ap "->" [(sy "T"), (sy "U"), (sy "V")]), (sy "W")] (sy "Any") (some [((ap "$eo_nil" [(sy "or"), .bool]), (sy "false")), ((ap "$eo_nil" [(sy "and"), .bool]), (sy "true")), ((ap "$eo_nil" [(sy "eo_List_cons"), (sy "eo_List")]), (sy "eo_List_nil"))]),
  .program (nm "$eo_eq") [{ name := nm "T", type := .type }, { name := nm "S", type := .type }, { name := nm "t", type := (sy "T") }, { name := nm "s", type := (sy "S") }] [(sy "T"), (sy "S")] .bool (some [((ap "$eo_eq" [(sy "t"), (sy "t")]), (sy "true")), ((ap "$eo_eq" [(sy "t"), (sy "s")]), (sy "false"))]),
  .define (nm "$eo_is_eq") [{ name := nm "T", type := .type, attrs := [.implicit] }, { name := nm "S", type := .type, attrs := [.implicit] }, { name := nm "t", type := (sy "T") }, { name := nm "s", type := (sy "S") }] (ap "eo::ite" [(ap "eo::and" [(ap "eo::is_ok" [(sy "t")]), (ap "eo::is_ok" [(sy "s")])]), (ap "$eo_eq" [(sy "s"), (sy "t")]), (sy "false")]) [],
  .define (nm "$eo_is_z") [{ name := nm "T", type := .type, attrs := [.implicit] }, { name := nm "x", type := (sy "T") }] (ap "$eo_is_eq" [(ap "eo::to_z" [(sy "x")]), (sy "x")]) [],
  .define (nm "$eo_is_q") [{ name := nm "T", type := .type, attrs := [.implicit] }, { name := nm "x", type := (sy "T") }] (ap "$eo_is_eq" [(ap "eo::to_q" [(sy "x")]), (sy "x")]) [],
  .define (nm "$eo_is_bin") [{ name := nm "T", type := .type, attrs := [.implicit] }, { name := nm "x", type := (sy "T") }] (ap "$eo_is_eq" [(ap "eo::to_bin" [(ap "eo::len" [(sy "x")]), (sy "x")]), (sy "x")]) [],
  .define (nm "$eo_is_str") [{ name := nm "T", type := .type, attrs := [.implicit] }, { name := nm "x", type := (sy "T") }] (ap "$eo_is_eq" [(ap "eo::to_str" [(sy "x")]), (sy "x")]) [],
  .define (nm "$eo_is_bool") [{ name := nm "T", type := .type, attrs := [.implicit] }, { name := nm "x", type := (sy "T") }] (ap "eo::ite" [(ap "$eo_is_eq" [(sy "x"), (sy "true")]), (sy "true"), (ap "$eo_is_eq" [(sy "x"), (sy "false")])]) [],
  .define (nm "$eo_is_var") [{ name := nm "T", type := .type, attrs := [.implicit] }, { name := nm "x", type := (sy "T") }] (ap "$eo_is_eq" [(ap "eo::var" [(ap "eo::nameof" [(sy "x")]), (ap "eo::typeof" [(sy "x")])]), (sy "x")]) [],
  .define (nm "$eo_gt") [{ name := nm "T", type := .type, attrs := [.implicit] }, { name := nm "x", type := (sy "T") }, { name := nm "y", type := (sy "T") }] (ap "eo::is_neg" [(ap "eo::add" [(ap "eo::neg" [(sy "x")]), (sy "y")])]) [],
  .define (nm "$eo_cmp") [{ name := nm "T", type := .type, attrs := [.implicit] }, { name := nm "U", type := .type, attrs := [.implicit] }, { name := nm "a", type := (sy "T") }, { name := nm "b", type := (sy "U") }] (ap "eo::is_neg" [(ap "eo::add" [(ap "eo::hash" [(sy "b")]), (ap "eo::neg" [(ap "eo::hash" [(sy "a")])])])]) [],
  .program (nm "$eo_is_list_rec") [{ name := nm "T", type := .type }, { name := nm "U", type := .type }, { name := nm "V", type := .type }, { name := nm "W", type := .type }, { name := nm "X", type := .type }, { name := nm "f", type := (ap "->" [(sy "T"), (sy "U"), (sy "V")]) }, { name := nm "x", type := (sy "T") }, { name := nm "y", type := (sy "U") }, { name := nm "nil", type := (sy "W") }, { name := nm "z", type := (sy "X") }] [(ap "->" [(sy "T"), (sy "U"), (sy "V")]), (sy "W"), (sy "X")] .bool (some [((ap "$eo_is_list_rec" [(sy "f"), (sy "nil"), (ap "f" [(sy "x"), (sy "y")])]), (ap "$eo_is_list_rec" [(sy "f"), (sy "nil"), (sy "y")])), ((ap "$eo_is_list_rec" [(sy "f"), (sy "nil"), (sy "z")]), (ap "$eo_eq" [(sy "nil"), (sy "z")]))]),
  .define (nm "$eo_is_list") [{ name := nm "T", type := .type, attrs := [.implicit] }, { name := nm "U", type := .type, attrs := [.implicit] }, { name := nm "V", type := .type, attrs := [.implicit] }, { name := nm "W", type := .type, attrs := [.implicit] }, { name := nm "f", type := (ap "->" [(sy "T"), (sy "U"), (sy "V")]) }, { name := nm "x", type := (sy "W") }] (ap "$eo_is_list_rec" [(sy "f"), (ap "$eo_nil" [(sy "f"), (ap "eo::typeof" [(sy "x")])]), (sy "x")]) [],
  .program (nm "$eo_get_elements_rec") [{ name := nm "T", type := .type }, { name := nm "U", type := .type }, { name := nm "V", type := .type }, { name := nm "W", type := .type }, { name := nm "W1", type := .type }, { name := nm "W2", type := .type }, { name := nm "X", type := .type }, { name := nm "f", type := (ap "->" [(sy "T"), (sy "U"), (sy "V")]) }, { name := nm "x", type := (sy "W1") }, { name := nm "y", type := (sy "W2") }, { name := nm "z", type := (sy "X") }, { name := nm "nil", type := (sy "W") }] [(ap "->" [(sy "T"), (sy "U"), (sy "V")]), (sy "W"), (sy "X")] (sy "eo_List") (some [((ap "$eo_get_elements_rec" [(sy "f"), (sy "nil"), (ap "f" [(sy "x"), (sy "y")])]), (ap "eo::cons" [(sy "eo_List_cons"), (sy "x"), (ap "$eo_get_elements_rec" [(sy "f"), (sy "nil"), (sy "y")])])), ((ap "$eo_get_elements_rec" [(sy "f"), (sy "nil"), (sy "nil")]), (sy "eo_List_nil"))]),
  .define (nm "$eo_get_elements") [{ name := nm "T", type := .type, attrs := [.implicit] }, { name := nm "U", type := .type, attrs := [.implicit] }, { name := nm "V", type := .type, attrs := [.implicit] }, { name := nm "W", type := .type, attrs := [.implicit] }, { name := nm "f", type := (ap "->" [(sy "T"), (sy "U"), (sy "V")]) }, { name := nm "a", type := (sy "W") }] (ap "eo::requires" [(ap "$eo_is_list" [(sy "f"), (sy "a")]), (sy "true"), (ap "$eo_get_elements_rec" [(sy "f"), (ap "$eo_nil" [(sy "f"), (ap "eo::typeof" [(sy "a")])]), (sy "a")])]) [],
  .define (nm "$eo_cons") [{ name := nm "T", type := .type, attrs := [.implicit] }, { name := nm "U", type := .type, attrs := [.implicit] }, { name := nm "V", type := .type, attrs := [.implicit] }, { name := nm "W1", type := .type, attrs := [.implicit] }, { name := nm "W2", type := .type, attrs := [.implicit] }, { name := nm "f", type := (ap "->" [(sy "T"), (sy "U"), (sy "V")]) }, { name := nm "e", type := (sy "W1") }, { name := nm "a", type := (sy "W2") }] (ap "eo::requires" [(ap "$eo_is_list" [(sy "f"), (sy "a")]), (sy "true"), (ap "f" [(sy "e"), (sy "a")])]) [],
  .program (nm "$eo_list_len_rec") [{ name := nm "T", type := .type }, { name := nm "U", type := .type }, { name := nm "V", type := .type }, { name := nm "W", type := .type }, { name := nm "f", type := (ap "->" [(sy "T"), (sy "U"), (sy "V")]) }, { name := nm "x", type := (sy "T") }, { name := nm "y", type := (sy "U") }, { name := nm "nil", type := (sy "W") }] [(ap "->" [(sy "T"), (sy "U"), (sy "V")]), (sy "W")] (sy "Int") (some [((ap "$eo_list_len_rec" [(sy "f"), (ap "f" [(sy "x"), (sy "y")])]), (ap "eo::add" [(.lit (.num (1))), (ap "$eo_list_len_rec" [(sy "f"), (sy "y")])])), ((ap "$eo_list_len_rec" [(sy "f"), (sy "nil")]), (.lit (.num (0))))]),
  .define (nm "$eo_list_len") [{ name := nm "T", type := .type, attrs := [.implicit] }, { name := nm "U", type := .type, attrs := [.implicit] }, { name := nm "V", type := .type, attrs := [.implicit] }, { name := nm "W", type := .type, attrs := [.implicit] }, { name := nm "f", type := (ap "->" [(sy "T"), (sy "U"), (sy "V")]) }, { name := nm "a", type := (sy "W") }] (ap "eo::requires" [(ap "$eo_is_list" [(sy "f"), (sy "a")]), (sy "true"), (ap "$eo_list_len_rec" [(sy "f"), (sy "a")])]) [],
  .program (nm "$eo_list_concat_rec") [{ name := nm "T", type := .type }, { name := nm "U", type := .type }, { name := nm "V", type := .type }, { name := nm "W", type := .type }, { name := nm "f", type := (ap "->" [(sy "T"), (sy "V"), (sy "V")]) }, { name := nm "x", type := (sy "W") }, { name := nm "y", type := (sy "U") }, { name := nm "z", type := (sy "U") }, { name := nm "nil", type := (sy "U") }] [(ap "->" [(sy "T"), (sy "V"), (sy "V")]), (sy "U"), (sy "U")] (sy "U") (some [((ap "$eo_list_concat_rec" [(sy "f"), (ap "f" [(sy "x"), (sy "y")]), (sy "z")]), (ap "f" [(sy "x"), (ap "$eo_list_concat_rec" [(sy "f"), (sy "y"), (sy "z")])])), ((ap "$eo_list_concat_rec" [(sy "f"), (sy "nil"), (sy "z")]), (sy "z"))]),
  .define (nm "$eo_list_concat") [{ name := nm "T", type := .type, attrs := [.implicit] }, { name := nm "U", type := .type, attrs := [.implicit] }, { name := nm "V", type := .type, attrs := [.implicit] }, { name := nm "f", type := (ap "->" [(sy "T"), (sy "V"), (sy "V")]) }, { name := nm "a", type := (sy "U") }, { name := nm "b", type := (sy "U") }] (ap "eo::requires" [(ap "$eo_is_list" [(sy "f"), (sy "a")]), (sy "true"), (ap "eo::requires" [(ap "$eo_is_list" [(sy "f"), (sy "b")]), (sy "true"), (ap "$eo_list_concat_rec" [(sy "f"), (sy "a"), (sy "b")])])]) [],
  .program (nm "$eo_list_nth_rec") [{ name := nm "T", type := .type }, { name := nm "U", type := .type }, { name := nm "f", type := (ap "->" [(sy "T"), (sy "T"), (sy "T")]) }, { name := nm "x", type := (sy "U") }, { name := nm "y", type := (sy "U") }, { name := nm "n", type := (sy "Int") }] [(ap "->" [(sy "T"), (sy "T"), (sy "T")]), (sy "U"), (sy "Int")] (sy "U") (some [((ap "$eo_list_nth_rec" [(sy "f"), (ap "f" [(sy "x"), (sy "y")]), (.lit (.num (0)))]), (sy "x")), ((ap "$eo_list_nth_rec" [(sy "f"), (ap "f" [(sy "x"), (sy "y")]), (sy "n")]), (ap "$eo_list_nth_rec" [(sy "f"), (sy "y"), (ap "eo::add" [(sy "n"), (.lit (.num (-1)))])]))]),
  .define (nm "$eo_list_nth") [{ name := nm "T", type := .type, attrs := [.implicit] }, { name := nm "U", type := .type, attrs := [.implicit] }, { name := nm "f", type := (ap "->" [(sy "T"), (sy "T"), (sy "T")]) }, { name := nm "a", type := (sy "U") }, { name := nm "n", type := (sy "Int") }] (ap "eo::requires" [(ap "$eo_is_list" [(sy "f"), (sy "a")]), (sy "true"), (ap "$eo_list_nth_rec" [(sy "f"), (sy "a"), (sy "n")])]) [],
  .program (nm "$eo_list_find_rec") [{ name := nm "T", type := .type }, { name := nm "U", type := .type }, { name := nm "V", type := .type }, { name := nm "W", type := .type }, { name := nm "X", type := .type }, { name := nm "f", type := (ap "->" [(sy "T"), (sy "U"), (sy "V")]) }, { name := nm "x", type := (sy "W") }, { name := nm "z", type := (sy "W") }, { name := nm "y", type := (sy "U") }, { name := nm "z", type := (sy "X") }, { name := nm "nil", type := (sy "W") }, { name := nm "n", type := (sy "Int") }] [(ap "->" [(sy "T"), (sy "U"), (sy "V")]), (sy "W"), (sy "X"), (sy "Int")] (sy "Int") (some [((ap "$eo_list_find_rec" [(sy "f"), (ap "f" [(sy "x"), (sy "y")]), (sy "z"), (sy "n")]), (ap "eo::ite" [(ap "$eo_eq" [(sy "x"), (sy "z")]), (sy "n"), (ap "$eo_list_find_rec" [(sy "f"), (sy "y"), (sy "z"), (ap "eo::add" [(sy "n"), (.lit (.num (1)))])])])), ((ap "$eo_list_find_rec" [(sy "f"), (sy "nil"), (sy "z"), (sy "n")]), (.lit (.num (-1))))]),
  .define (nm "$eo_list_find") [{ name := nm "T", type := .type, attrs := [.implicit] }, { name := nm "U", type := .type, attrs := [.implicit] }, { name := nm "V", type := .type, attrs := [.implicit] }, { name := nm "W1", type := .type, attrs := [.implicit] }, { name := nm "W2", type := .type, attrs := [.implicit] }, { name := nm "f", type := (ap "->" [(sy "T"), (sy "U"), (sy "V")]) }, { name := nm "a", type := (sy "W1") }, { name := nm "e", type := (sy "W2") }] (ap "eo::requires" [(ap "$eo_is_list" [(sy "f"), (sy "a")]), (sy "true"), (ap "$eo_list_find_rec" [(sy "f"), (sy "a"), (sy "e"), (.lit (.num (0)))])]) [],
  .program (nm "$eo_list_rev_rec") [{ name := nm "T", type := .type }, { name := nm "U", type := .type }, { name := nm "V", type := .type }, { name := nm "W", type := .type }, { name := nm "f", type := (ap "->" [(sy "T"), (sy "V"), (sy "V")]) }, { name := nm "x", type := (sy "W") }, { name := nm "y", type := (sy "U") }, { name := nm "nil", type := (sy "U") }, { name := nm "acc", type := (sy "U") }] [(ap "->" [(sy "T"), (sy "V"), (sy "V")]), (sy "U"), (sy "U")] (sy "U") (some [((ap "$eo_list_rev_rec" [(sy "f"), (ap "f" [(sy "x"), (sy "y")]), (sy "acc")]), (ap "$eo_list_rev_rec" [(sy "f"), (sy "y"), (ap "f" [(sy "x"), (sy "acc")])])), ((ap "$eo_list_rev_rec" [(sy "f"), (sy "nil"), (sy "acc")]), (sy "acc"))]),
  .define (nm "$eo_list_rev") [{ name := nm "T", type := .type, attrs := [.implicit] }, { name := nm "U", type := .type, attrs := [.implicit] }, { name := nm "V", type := .type, attrs := [.implicit] }, { name := nm "f", type := (ap "->" [(sy "T"), (sy "V"), (sy "V")]) }, { name := nm "a", type := (sy "U") }] (ap "eo::requires" [(ap "$eo_is_list" [(sy "f"), (sy "a")]), (sy "true"), (ap "$eo_list_rev_rec" [(sy "f"), (sy "a"), (ap "$eo_nil" [(sy "f"), (ap "eo::typeof" [(sy "a")])])])]) [],
  .program (nm "$eo_list_erase_rec") [{ name := nm "T", type := .type }, { name := nm "U", type := .type }, { name := nm "V", type := .type }, { name := nm "W", type := .type }, { name := nm "X", type := .type }, { name := nm "f", type := (ap "->" [(sy "T"), (sy "V"), (sy "V")]) }, { name := nm "x", type := (sy "W") }, { name := nm "y", type := (sy "U") }, { name := nm "z", type := (sy "X") }, { name := nm "nil", type := (sy "U") }] [(ap "->" [(sy "T"), (sy "V"), (sy "V")]), (sy "U"), (sy "X")] (sy "U") (some [((ap "$eo_list_erase_rec" [(sy "f"), (ap "f" [(sy "x"), (sy "y")]), (sy "z")]), (ap "eo::ite" [(ap "$eo_eq" [(sy "z"), (sy "x")]), (sy "y"), (ap "f" [(sy "x"), (ap "$eo_list_erase_rec" [(sy "f"), (sy "y"), (sy "z")])])])), ((ap "$eo_list_erase_rec" [(sy "f"), (sy "nil"), (sy "z")]), (sy "nil"))]),
  .define (nm "$eo_list_erase") [{ name := nm "T", type := .type, attrs := [.implicit] }, { name := nm "U", type := .type, attrs := [.implicit] }, { name := nm "V", type := .type, attrs := [.implicit] }, { name := nm "W", type := .type, attrs := [.implicit] }, { name := nm "f", type := (ap "->" [(sy "T"), (sy "V"), (sy "V")]) }, { name := nm "a", type := (sy "U") }, { name := nm "e", type := (sy "W") }] (ap "eo::requires" [(ap "$eo_is_list" [(sy "f"), (sy "a")]), (sy "true"), (ap "$eo_list_erase_rec" [(sy "f"), (sy "a"), (sy "e")])]) [],
  .program (nm "$eo_list_erase_all_rec") [{ name := nm "T", type := .type }, { name := nm "U", type := .type }, { name := nm "V", type := .type }, { name := nm "W", type := .type }, { name := nm "X", type := .type }, { name := nm "f", type := (ap "->" [(sy "T"), (sy "V"), (sy "V")]) }, { name := nm "x", type := (sy "W") }, { name := nm "y", type := (sy "U") }, { name := nm "z", type := (sy "X") }, { name := nm "nil", type := (sy "W") }] [(ap "->" [(sy "T"), (sy "V"), (sy "V")]), (sy "U"), (sy "X")] (sy "U") (some [((ap "$eo_list_erase_all_rec" [(sy "f"), (ap "f" [(sy "x"), (sy "y")]), (sy "z")]), (.letE [nm "res"] [(ap "$eo_list_erase_all_rec" [(sy "f"), (sy "y"), (sy "z")])] (ap "eo::ite" [(ap "$eo_eq" [(sy "z"), (sy "x")]), (sy "res"), (ap "f" [(sy "x"), (sy "res")])]))), ((ap "$eo_list_erase_all_rec" [(sy "f"), (sy "nil"), (sy "z")]), (sy "nil"))]),
  .define (nm "$eo_list_erase_all") [{ name := nm "T", type := .type, attrs := [.implicit] }, { name := nm "U", type := .type, attrs := [.implicit] }, { name := nm "V", type := .type, attrs := [.implicit] }, { name := nm "W", type := .type, attrs := [.implicit] }, { name := nm "f", type := (ap "->" [(sy "T"), (sy "V"), (sy "V")]) }, { name := nm "a", type := (sy "U") }, { name := nm "e", type := (sy "W") }] (ap "eo::requires" [(ap "$eo_is_list" [(sy "f"), (sy "a")]), (sy "true"), (ap "$eo_list_erase_all_rec" [(sy "f"), (sy "a"), (sy "e")])]) [],
  .program (nm "$eo_list_setof_rec") [{ name := nm "T", type := .type }, { name := nm "U", type := .type }, { name := nm "V", type := .type }, { name := nm "W", type := .type }, { name := nm "f", type := (ap "->" [(sy "T"), (sy "V"), (sy "V")]) }, { name := nm "x", type := (sy "W") }, { name := nm "y", type := (sy "U") }, { name := nm "nil", type := (sy "U") }] [(ap "->" [(sy "T"), (sy "V"), (sy "V")]), (sy "U")] (sy "U") (some [((ap "$eo_list_setof_rec" [(sy "f"), (ap "f" [(sy "x"), (sy "y")])]), (ap "f" [(sy "x"), (ap "$eo_list_setof_rec" [(sy "f"), (ap "$eo_list_erase_all" [(sy "f"), (sy "y"), (sy "x")])])])), ((ap "$eo_list_setof_rec" [(sy "f"), (sy "nil")]), (sy "nil"))]),
  .define (nm "$eo_list_setof") [{ name := nm "T", type := .type, attrs := [.implicit] }, { name := nm "U", type := .type, attrs := [.implicit] }, { name := nm "V", type := .type, attrs := [.implicit] }, { name := nm "f", type := (ap "->" [(sy "T"), (sy "V"), (sy "V")]) }, { name := nm "a", type := (sy "U") }] (ap "eo::requires" [(ap "$eo_is_list" [(sy "f"), (sy "a")]), (sy "true"), (ap "$eo_list_setof_rec" [(sy "f"), (sy "a")])]) [],
  .program (nm "$eo_list_minclude_rec") [{ name := nm "T", type := .type }, { name := nm "x", type := (sy "T") }, { name := nm "y", type := (sy "eo_List"), attrs := [.list] }, { name := nm "z", type := (sy "eo_List") }] [(sy "eo_List"), (sy "eo_List")] .bool (some [((ap "$eo_list_minclude_rec" [(ap "eo_List_cons" [(sy "x"), (sy "y")]), (sy "z")]), (.letE [nm "res"] [(ap "$eo_list_erase" [(sy "eo_List_cons"), (sy "z"), (sy "x")])] (ap "eo::ite" [(ap "$eo_eq" [(sy "res"), (sy "z")]), (sy "false"), (ap "$eo_list_minclude_rec" [(sy "y"), (sy "res")])]))), ((ap "$eo_list_minclude_rec" [(sy "eo_List_nil"), (sy "z")]), (sy "true"))]),
  .define (nm "$eo_list_minclude") [{ name := nm "T", type := .type, attrs := [.implicit] }, { name := nm "U", type := .type, attrs := [.implicit] }, { name := nm "V", type := .type, attrs := [.implicit] }, { name := nm "W1", type := .type, attrs := [.implicit] }, { name := nm "W2", type := .type, attrs := [.implicit] }, { name := nm "f", type := (ap "->" [(sy "T"), (sy "U"), (sy "V")]) }, { name := nm "a", type := (sy "W1") }, { name := nm "b", type := (sy "W2") }] (ap "eo::requires" [(ap "$eo_is_list" [(sy "f"), (sy "a")]), (sy "true"), (ap "eo::requires" [(ap "$eo_is_list" [(sy "f"), (sy "b")]), (sy "true"), (ap "$eo_list_minclude_rec" [(ap "$eo_get_elements" [(sy "f"), (sy "a")]), (ap "$eo_get_elements" [(sy "f"), (sy "b")])])])]) [],
  .define (nm "$eo_list_meq") [{ name := nm "T", type := .type, attrs := [.implicit] }, { name := nm "U", type := .type, attrs := [.implicit] }, { name := nm "V", type := .type, attrs := [.implicit] }, { name := nm "W1", type := .type, attrs := [.implicit] }, { name := nm "W2", type := .type, attrs := [.implicit] }, { name := nm "f", type := (ap "->" [(sy "T"), (sy "U"), (sy "V")]) }, { name := nm "a", type := (sy "W1") }, { name := nm "b", type := (sy "W2") }] (ap "eo::and" [(ap "$eo_list_minclude" [(sy "f"), (sy "a"), (sy "b")]), (ap "$eo_list_minclude" [(sy "f"), (sy "b"), (sy "a")])]) [],
  .program (nm "$eo_list_diff_rec") [{ name := nm "T", type := .type }, { name := nm "V", type := .type }, { name := nm "x", type := (sy "T") }, { name := nm "y", type := (sy "V") }, { name := nm "f", type := (ap "->" [(sy "T"), (sy "V"), (sy "V")]) }, { name := nm "nil", type := (sy "V") }, { name := nm "z", type := (sy "V") }] [(ap "->" [(sy "T"), (sy "V"), (sy "V")]), (sy "V"), (sy "V")] (sy "V") (some [((ap "$eo_list_diff_rec" [(sy "f"), (ap "f" [(sy "x"), (sy "y")]), (sy "z")]), (.letE [nm "res"] [(ap "$eo_list_erase" [(sy "f"), (sy "z"), (sy "x")])] (ap "eo::ite" [(ap "$eo_eq" [(sy "res"), (sy "z")]), (ap "f" [(sy "x"), (ap "$eo_list_diff_rec" [(sy "f"), (sy "y"), (sy "res")])]), (ap "$eo_list_diff_rec" [(sy "f"), (sy "y"), (sy "res")])]))), ((ap "$eo_list_diff_rec" [(sy "f"), (sy "nil"), (sy "z")]), (sy "nil"))]),
  .define (nm "$eo_list_diff") [{ name := nm "T", type := .type, attrs := [.implicit] }, { name := nm "V", type := .type, attrs := [.implicit] }, { name := nm "f", type := (ap "->" [(sy "T"), (sy "V"), (sy "V")]) }, { name := nm "a", type := (sy "V") }, { name := nm "b", type := (sy "V") }] (ap "eo::requires" [(ap "$eo_is_list" [(sy "f"), (sy "a")]), (sy "true"), (ap "eo::requires" [(ap "$eo_is_list" [(sy "f"), (sy "b")]), (sy "true"), (ap "$eo_list_diff_rec" [(sy "f"), (sy "a"), (sy "b")])])]) [],
  .program (nm "$eo_list_inter_rec") [{ name := nm "T", type := .type }, { name := nm "V", type := .type }, { name := nm "x", type := (sy "T") }, { name := nm "y", type := (sy "V") }, { name := nm "f", type := (ap "->" [(sy "T"), (sy "V"), (sy "V")]) }, { name := nm "nil", type := (sy "V") }, { name := nm "z", type := (sy "V") }] [(ap "->" [(sy "T"), (sy "V"), (sy "V")]), (sy "V"), (sy "V")] (sy "V") (some [((ap "$eo_list_inter_rec" [(sy "f"), (ap "f" [(sy "x"), (sy "y")]), (sy "z")]), (.letE [nm "res"] [(ap "$eo_list_erase" [(sy "f"), (sy "z"), (sy "x")])] (ap "eo::ite" [(ap "$eo_eq" [(sy "res"), (sy "z")]), (ap "$eo_list_inter_rec" [(sy "f"), (sy "y"), (sy "res")]), (ap "f" [(sy "x"), (ap "$eo_list_inter_rec" [(sy "f"), (sy "y"), (sy "res")])])]))), ((ap "$eo_list_inter_rec" [(sy "f"), (sy "nil"), (sy "z")]), (sy "nil"))]),
  .define (nm "$eo_list_inter") [{ name := nm "T", type := .type, attrs := [.implicit] }, { name := nm "V", type := .type, attrs := [.implicit] }, { name := nm "f", type := (ap "->" [(sy "T"), (sy "V"), (sy "V")]) }, { name := nm "a", type := (sy "V") }, { name := nm "b", type := (sy "V") }] (ap "eo::requires" [(ap "$eo_is_list" [(sy "f"), (sy "a")]), (sy "true"), (ap "eo::requires" [(ap "$eo_is_list" [(sy "f"), (sy "b")]), (sy "true"), (ap "$eo_list_inter_rec" [(sy "f"), (sy "a"), (sy "b")])])]) [],
  .program (nm "$eo_list_singleton_elim_2") [{ name := nm "T", type := .type }, { name := nm "U", type := .type }, { name := nm "V", type := .type }, { name := nm "f", type := (ap "->" [(sy "T"), (sy "U"), (sy "V")]) }, { name := nm "x", type := (sy "T") }, { name := nm "z", type := (sy "V") }, { name := nm "nil", type := (sy "U") }] [(ap "->" [(sy "T"), (sy "U"), (sy "V")]), (sy "U"), (sy "V")] (sy "V") (some [((ap "$eo_list_singleton_elim_2" [(sy "f"), (sy "nil"), (ap "f" [(sy "x"), (sy "nil")])]), (sy "x")), ((ap "$eo_list_singleton_elim_2" [(sy "f"), (sy "nil"), (sy "z")]), (sy "z"))]),
  .define (nm "$eo_list_singleton_elim") [{ name := nm "T", type := .type, attrs := [.implicit] }, { name := nm "U", type := .type, attrs := [.implicit] }, { name := nm "V", type := .type, attrs := [.implicit] }, { name := nm "W", type := .type, attrs := [.implicit] }, { name := nm "f", type := (ap "->" [(sy "T"), (sy "U"), (sy "V")]) }, { name := nm "a", type := (sy "W") }] (ap "eo::requires" [(ap "$eo_is_list" [(sy "f"), (sy "a")]), (sy "true"), (ap "$eo_list_singleton_elim_2" [(sy "f"), (ap "$eo_nil" [(sy "f"), (ap "eo::typeof" [(sy "a")])]), (sy "a")])]) [] ]

/-- the run -/
def defsRun : Run (State × Response) := main exB 100 (fun _ => none) 3 [] (.stdin defsCmds) (State.init exB 10)

/-- a parameter, a constant, a program -/
def q (i : Nat) : Term := .sym PARAM i
def dC (i : Nat) : Term := .sym CONST i
def dP (i : Nat) : Term := .sym PROGRAM_CONST i

/-- the symbols of the programs -/
def dS : ListSyms where
  nil := dP 26
  eq := dP 31
  isList := dP 65
  getElements := dP 84
  len := dP 107
  concat := dP 123
  nth := dP 136
  find := dP 154
  rev := dP 172
  erase := dP 188
  eraseAll := dP 206
  setof := dP 222
  minclude := dP 232
  diff := dP 256
  inter := dP 269
  single := dP 282
  cons := dC 20
  nilList := dC 18

/-- test of `ProgramIs` -/
def progIs (e : Env) (p : Term) (cases : List (List Term × Term)) : Bool :=
  decide (p.kind = PROGRAM_CONST ∧ p.children = []) && decide (e.program p = some (.node PROGRAM (cases.map fun c => .node TUPLE [call p c.1, c.2])))

theorem progIs_ok {e : Env} {p : Term} {cases : List (List Term × Term)} (h : progIs e p cases = true) : ProgramIs e p cases := by
  simp only [progIs, Bool.and_eq_true, decide_eq_true_eq] at h
  exact ⟨h.1, _, h.2, rfl⟩

/-- the programs are those of `ListDefs` -/
def defsPrograms (e : Env) : List Bool := [
  progIs e dS.nil [([dC 11, tBool], tFalse), ([dC 12, tBool], tTrue), ([dC 20, dC 17], dC 18)],
  (let t := q 29; let s := q 30; progIs e dS.eq [([t, t], boolVal true), ([t, s], boolVal false)]),
  (let f := q 60; let x := q 61; let y := q 62; let nil := q 63; let z := q 64; progIs e dS.isList [([f, nil, bin f x y], call dS.isList [f, nil, y]), ([f, nil, z], eqDef dS nil z)]),
  (let f := q 79; let x := q 80; let y := q 81; let nil := q 83; progIs e dS.getElements [([f, nil, bin f x y], .node EVAL_CONS [dS.cons, x, call dS.getElements [f, nil, y]]), ([f, nil, nil], dS.nilList)]),
  (let f := q 103; let x := q 104; let y := q 105; let nil := q 106; progIs e dS.len [([f, bin f x y], .node EVAL_ADD [int 1, call dS.len [f, y]]), ([f, nil], int 0)]),
  (let f := q 118; let x := q 119; let y := q 120; let z := q 121; let nil := q 122; progIs e dS.concat [([f, bin f x y, z], bin f x (call dS.concat [f, y, z])), ([f, nil, z], z)]),
  (let f := q 132; let x := q 133; let y := q 134; let n := q 135; progIs e dS.nth [([f, bin f x y, int 0], x), ([f, bin f x y, n], call dS.nth [f, y, .node EVAL_ADD [n, int (-1)]])]),
  (let f := q 147; let x := q 148; let y := q 150; let z := q 151; let nil := q 152; let n := q 153; progIs e dS.find [([f, bin f x y, z, n], ite (eqDef dS x z) n (call dS.find [f, y, z, .node EVAL_ADD [n, int 1]])), ([f, nil, z, n], int (-1))]),
  (let f := q 167; let x := q 168; let y := q 169; let nil := q 170; let acc := q 171; progIs e dS.rev [([f, bin f x y, acc], call dS.rev [f, y, bin f x acc]), ([f, nil, acc], acc)]),
  (let f := q 183; let x := q 184; let y := q 185; let z := q 186; let nil := q 187; progIs e dS.erase [([f, bin f x y, z], ite (eqDef dS z x) y (bin f x (call dS.erase [f, y, z]))), ([f, nil, z], nil)]),
  (let f := q 201; let x := q 202; let y := q 203; let z := q 204; let nil := q 205; progIs e dS.eraseAll [([f, bin f x y, z], ite (eqDef dS z x) (call dS.eraseAll [f, y, z]) (bin f x (call dS.eraseAll [f, y, z]))), ([f, nil, z], nil)]),
  (let f := q 218; let x := q 219; let y := q 220; let nil := q 221; progIs e dS.setof [([f, bin f x y], bin f x (call dS.setof [f, eraseAllDef dS f y x])), ([f, nil], nil)]),
  (let x := q 229; let y := q 230; let z := q 231; progIs e dS.minclude [([bin dS.cons x y, z], ite (eqDef dS (eraseDef dS dS.cons z x) z) (boolVal false) (call dS.minclude [y, eraseDef dS dS.cons z x])), ([dS.nilList, z], boolVal true)]),
  (let f := q 253; let x := q 251; let y := q 252; let z := q 255; let nil := q 254; progIs e dS.diff [([f, bin f x y, z], ite (eqDef dS (eraseDef dS f z x) z) (bin f x (call dS.diff [f, y, eraseDef dS f z x])) (call dS.diff [f, y, eraseDef dS f z x])), ([f, nil, z], nil)]),
  (let f := q 266; let x := q 264; let y := q 265; let z := q 268; let nil := q 267; progIs e dS.inter [([f, bin f x y, z], ite (eqDef dS (eraseDef dS f z x) z) (call dS.inter [f, y, eraseDef dS f z x]) (bin f x (call dS.inter [f, y, eraseDef dS f z x]))), ([f, nil, z], nil)]),
  (let f := q 278; let x := q 279; let z := q 280; let nil := q 281; progIs e dS.single [([f, nil, bin f x nil], x), ([f, nil, z], z)]) ]

/-- the macros are those of Spec/ListDefs.lean -/
def defsMacros (s : Scope) : List Bool := [
  decide (s.get (nm "$eo_is_list") = some (.node LAMBDA [.node TUPLE [q 70, q 71], isListDef dS (q 70) (q 71)])),
  decide (s.get (nm "$eo_get_elements") = some (.node LAMBDA [.node TUPLE [q 89, q 90], getElementsDef dS (q 89) (q 90)])),
  decide (s.get (nm "$eo_cons") = some (.node LAMBDA [.node TUPLE [q 96, q 97, q 98], consDef dS (q 96) (q 97) (q 98)])),
  decide (s.get (nm "$eo_list_len") = some (.node LAMBDA [.node TUPLE [q 112, q 113], lenDef dS (q 112) (q 113)])),
  decide (s.get (nm "$eo_list_concat") = some (.node LAMBDA [.node TUPLE [q 127, q 128, q 129], concatDef dS (q 127) (q 128) (q 129)])),
  decide (s.get (nm "$eo_list_nth") = some (.node LAMBDA [.node TUPLE [q 139, q 140, q 141], nthDef dS (q 139) (q 140) (q 141)])),
  decide (s.get (nm "$eo_list_find") = some (.node LAMBDA [.node TUPLE [q 160, q 161, q 162], findDef dS (q 160) (q 161) (q 162)])),
  decide (s.get (nm "$eo_list_rev") = some (.node LAMBDA [.node TUPLE [q 176, q 177], revDef dS (q 176) (q 177)])),
  decide (s.get (nm "$eo_list_erase") = some (.node LAMBDA [.node TUPLE [q 193, q 194, q 195], eraseDef dS (q 193) (q 194) (q 195)])),
  decide (s.get (nm "$eo_list_erase_all") = some (.node LAMBDA [.node TUPLE [q 211, q 212, q 213], eraseAllDef dS (q 211) (q 212) (q 213)])),
  decide (s.get (nm "$eo_list_setof") = some (.node LAMBDA [.node TUPLE [q 226, q 227], setofDef dS (q 226) (q 227)])),
  decide (s.get (nm "$eo_list_minclude") = some (.node LAMBDA [.node TUPLE [q 238, q 239, q 240], mincludeDef dS (q 238) (q 239) (q 240)])),
  decide (s.get (nm "$eo_list_meq") = some (.node LAMBDA [.node TUPLE [q 246, q 247, q 248], meqDef dS (q 246) (q 247) (q 248)])),
  decide (s.get (nm "$eo_list_diff") = some (.node LAMBDA [.node TUPLE [q 259, q 260, q 261], diffDef dS (q 259) (q 260) (q 261)])),
  decide (s.get (nm "$eo_list_inter") = some (.node LAMBDA [.node TUPLE [q 272, q 273, q 274], interDef dS (q 272) (q 273) (q 274)])),
  decide (s.get (nm "$eo_list_singleton_elim") = some (.node LAMBDA [.node TUPLE [q 287, q 288], singleDef dS (q 287) (q 288)])) ]

/-- declarations, types and values of `$eo_nil` -/
def defsTypes (e : Env) : List Bool := [
  decide ((e.appInfo (dC 11)).map (fun a => (a.attr, a.cons)) = some (.RIGHT_ASSOC_NIL, some tFalse)),
  decide ((e.appInfo (dC 20)).map (fun a => (a.attr, a.cons)) = some (.RIGHT_ASSOC_NIL, some (dC 18))),
  decide ((ops e 20).getType (dC 11) = .ok (some (fnType tBool (fnType tBool tBool)))),
  decide ((ops e 20).getType (dC 13) = .ok (some tBool)),
  decide ((ops e 20).getType (dC 14) = .ok (some tBool)),
  decide ((ops e 20).getType tFalse = .ok (some tBool)),
  decide ((ops e 20).getType (dC 18) = .ok (some (dC 17))),
  decide ((ops e 20).getType (.node APPLY [dC 20, dC 13]) = .ok (some (fnType (dC 17) (dC 17)))),
  decide ((ops e 20).getType (.node APPLY [dC 20, dC 14]) = .ok (some (fnType (dC 17) (dC 17)))),
  decide ((ops e 20).evaluate (call (dP 26) [dC 11, tBool]) [] = .ok tFalse),
  decide ((ops e 20).evaluate (call (dP 26) [dC 20, dC 17]) [] = .ok (dC 18)) ]

/-- C76: what the run gives -/
theorem defs_run : defsRun.map (fun p => (p.2, (defsPrograms (p.1.env exB)).all id, (defsMacros p.1.scope).all id, (defsTypes (p.1.env exB)).all id)) =
    .ok (.correct, true, true, true) := by decide +kernel

/-! ### The hypotheses hold after the run -/

theorem leaf_sub {s t : Term} (h : Sub s t) (ht : t.children = []) : s = t := by
  rcases h.inv with e | ⟨c, hc, _⟩
  · exact e
  · rw [ht] at hc; simp at hc

theorem curried_rlist {f nil : Term} (hf : f.children = []) (hfk : f.kind ≠ APPLY) (hn : nil.children = []) : ∀ xs : List Term,
    (∀ x ∈ xs, x.children = []) → Curried f (rlist f nil xs)
  | [], _ => fun x y r1 r2 h => by
    have h0 : Sub (.node APPLY (.node APPLY (f :: x :: r1) :: y :: r2)) nil := h
    have := congrArg Term.children (leaf_sub h0 hn)
    rw [hn] at this; simp [Term.children] at this
  | a :: xs, hx => fun x y r1 r2 h => by
    rcases h.inv with e | ⟨c, hc, h2⟩
    · simp only [rlist, bin, Term.node.injEq, List.cons.injEq, true_and] at e
      exact ⟨e.1.2, e.2.2⟩
    · simp only [rlist, bin, Term.children, List.mem_cons, List.not_mem_nil, or_false] at hc
      rcases hc with rfl | rfl
      · rcases h2.inv with e | ⟨d, hd, h3⟩
        · simp only [Term.node.injEq, List.cons.injEq, true_and] at e
          exact absurd (e.1 ▸ rfl : f.kind = APPLY) hfk
        · simp only [Term.children, List.mem_cons, List.not_mem_nil, or_false] at hd
          rcases hd with rfl | rfl
          · have := congrArg Term.children (leaf_sub h3 hf)
            rw [hf] at this; simp [Term.children] at this
          · have := congrArg Term.children (leaf_sub h3 (hx d (by simp)))
            rw [hx d (by simp)] at this; simp [Term.children] at this
      · exact curried_rlist hf hfk hn xs (fun x h => hx x (by simp [h])) x y r1 r2 h2

/-- the value of `$eo_nil` on the type of a term -/
theorem nilDef_of_type {env : Env} {S : ListSyms} (D : ListDefs env S) {f l ty nil : Term} (hf : IsValue f) (hl : IsValue l) (hty : IsValue ty)
    (h1 : TypeResult env l (some ty)) (h2 : EvaluatesTo env [] (call S.nil [f, ty]) nil) : EvaluatesTo env [] (nilDef S f l) nil := by
  obtain ⟨cases, hp⟩ := D.nil
  have ht : EvaluatesTo env [] (.node EVAL_TYPE_OF [l]) ty := by
    refine (C31_operator env [] EVAL_TYPE_OF [(l, l)] rfl (by simp) (by simp) (by simpa using value_eval env [] _ hl) _).mpr (.inl ?_)
    obtain ⟨n, hn⟩ := h1
    obtain ⟨hg, he⟩ := (isValue_iff l).mp hl
    have hg' := ((isValue_iff ty).mp hty).1
    exact ⟨n+1, by simp [ops, opStep, evalGround, hg, he, argO, Out.bind, hn, hg']⟩
  exact (ev_call hp [(f, f), (.node EVAL_TYPE_OF [l], ty)] (by simpa using ⟨value_eval env [] _ hf, ht⟩) (by simpa using ⟨hf, hty⟩) _).mpr h2

/-- C76: the definitions are there, `or` is a list operator, and all lists of `a` and `b` are arguments as required -/
theorem defs_hold : ∃ p, defsRun = .ok p ∧ ListDefs (p.1.env exB) dS ∧ NilListOp (p.1.env exB) (dC 11) tFalse tFalse ∧
    ∀ xs, (∀ x ∈ xs, x = dC 13 ∨ x = dC 14) → ListArg (p.1.env exB) dS (dC 11) tFalse tFalse (rlist (dC 11) tFalse xs) ∧
      NilOn (p.1.env exB) dS (dC 11) tFalse xs ∧ ElementList (p.1.env exB) dS (dC 18) xs := by
  obtain ⟨p, hp, hr⟩ := Run.map_ok.1 defs_run
  simp only [Prod.mk.injEq] at hr
  obtain ⟨_, h1, _, h3⟩ := hr
  refine ⟨p, hp, ?_⟩
  generalize p.1.env exB = e at h1 h3 ⊢
  simp only [defsPrograms, defsTypes, List.all_cons, List.all_nil, id_eq, Bool.and_eq_true, Bool.and_true, decide_eq_true_eq] at h1 h3
  obtain ⟨p0, p1, p2, p3, p4, p5, p6, p7, p8, p9, p10, p11, p12, p13, p14, p15⟩ := h1
  obtain ⟨t1, t2, t3, t4, t5, t6, t7, t8, t9, t10, t11⟩ := h3
  have vC : ∀ i, IsValue (dC i) := fun i => (isValue_iff _).mpr ⟨by rw [ground_leaf _ rfl]; rfl, by rw [evaluatable_leaf _ rfl]; rfl⟩
  have vF : IsValue tFalse := bool_value false
  have vB : IsValue tBool := (isValue_iff _).mpr (by decide +kernel)
  have D : ListDefs e dS := {
    nil := ⟨_, progIs_ok p0⟩
    eq := ⟨_, _, ⟨by simp [q, IsParam, Term.kind, Term.children], by decide +kernel⟩, progIs_ok p1⟩
    isList := ⟨_, _, _, _, _, ⟨by simp [q, IsParam, Term.kind, Term.children], by decide +kernel⟩, progIs_ok p2⟩
    getElements := ⟨_, _, _, _, ⟨by simp [q, IsParam, Term.kind, Term.children], by decide +kernel⟩, progIs_ok p3⟩
    len := ⟨_, _, _, _, ⟨by simp [q, IsParam, Term.kind, Term.children], by decide +kernel⟩, progIs_ok p4⟩
    concat := ⟨_, _, _, _, _, ⟨by simp [q, IsParam, Term.kind, Term.children], by decide +kernel⟩, progIs_ok p5⟩
    nth := ⟨_, _, _, _, ⟨by simp [q, IsParam, Term.kind, Term.children], by decide +kernel⟩, progIs_ok p6⟩
    find := ⟨_, _, _, _, _, _, ⟨by simp [q, IsParam, Term.kind, Term.children], by decide +kernel⟩, progIs_ok p7⟩
    rev := ⟨_, _, _, _, _, ⟨by simp [q, IsParam, Term.kind, Term.children], by decide +kernel⟩, progIs_ok p8⟩
    erase := ⟨_, _, _, _, _, ⟨by simp [q, IsParam, Term.kind, Term.children], by decide +kernel⟩, progIs_ok p9⟩
    eraseAll := ⟨_, _, _, _, _, ⟨by simp [q, IsParam, Term.kind, Term.children], by decide +kernel⟩, progIs_ok p10⟩
    setof := ⟨_, _, _, _, ⟨by simp [q, IsParam, Term.kind, Term.children], by decide +kernel⟩, progIs_ok p11⟩
    minclude := ⟨_, _, _, ⟨by simp [q, IsParam, Term.kind, Term.children], by decide +kernel⟩, progIs_ok p12⟩
    diff := ⟨_, _, _, _, _, ⟨by simp [q, IsParam, Term.kind, Term.children], by decide +kernel⟩, progIs_ok p13⟩
    inter := ⟨_, _, _, _, _, ⟨by simp [q, IsParam, Term.kind, Term.children], by decide +kernel⟩, progIs_ok p14⟩
    single := ⟨_, _, _, _, ⟨by simp [q, IsParam, Term.kind, Term.children], by decide +kernel⟩, progIs_ok p15⟩ }
  have decl : ∀ {f c : Term}, (e.appInfo f).map (fun a => (a.attr, a.cons)) = some (.RIGHT_ASSOC_NIL, some c) → ∃ a, Declared e f a c ∧ NilAttr a false := by
    intro f c h
    obtain ⟨⟨a, c', k, ov⟩, h1, h2⟩ := Option.map_eq_some_iff.mp h
    simp only [Prod.mk.injEq] at h2
    obtain ⟨rfl, rfl⟩ := h2
    exact ⟨_, ⟨k, ov, h1⟩, .right⟩
  have hb : ReducedType tBool := ⟨vB, by decide +kernel⟩
  have hL : ReducedType (dC 17) := ⟨vC 17, by decide +kernel⟩
  have tOr : ∀ xs : List Term, (∀ x ∈ xs, x = dC 13 ∨ x = dC 14) → TypeResult e (rlist (dC 11) tFalse xs) (some tBool) := by
    intro xs
    induction xs with
    | nil => exact fun _ => ⟨20, t6⟩
    | cons x xs ih =>
      intro hx
      refine (fnType_app2 ⟨20, t3⟩ hb hb vB).mpr ⟨rfl, rfl, ?_, ih fun y hy => hx y (by simp [hy]), rfl⟩
      rcases hx x (by simp) with rfl | rfl
      · exact ⟨20, t4⟩
      · exact ⟨20, t5⟩
  have tCons : ∀ xs : List Term, (∀ x ∈ xs, x = dC 13 ∨ x = dC 14) → TypeResult e (rlist (dC 20) (dC 18) xs) (some (dC 17)) := by
    intro xs
    induction xs with
    | nil => exact fun _ => ⟨20, t7⟩
    | cons x xs ih =>
      intro hx
      refine (fnType_app ?_ hL (vC 17)).mpr ⟨rfl, ih fun y hy => hx y (by simp [hy]), rfl⟩
      rcases hx x (by simp) with rfl | rfl
      · exact ⟨20, t8⟩
      · exact ⟨20, t9⟩
  have vx : ∀ {xs : List Term}, (∀ x ∈ xs, x = dC 13 ∨ x = dC 14) → ∀ x ∈ xs, IsValue x := by
    intro xs hx x hm
    rcases hx x hm with rfl | rfl <;> exact vC _
  have nOr : ∀ xs : List Term, (∀ x ∈ xs, x = dC 13 ∨ x = dC 14) → EvaluatesTo e [] (nilDef dS (dC 11) (rlist (dC 11) tFalse xs)) tFalse := fun xs hx =>
    nilDef_of_type D (vC 11) ((value_rlist (vC 11) vF xs).mpr (vx hx)) vB (tOr xs hx) ⟨20, t10⟩
  have nCons : ∀ xs : List Term, (∀ x ∈ xs, x = dC 13 ∨ x = dC 14) → EvaluatesTo e [] (nilDef dS (dC 20) (rlist (dC 20) (dC 18) xs)) (dC 18) := fun xs hx =>
    nilDef_of_type D (vC 20) ((value_rlist (vC 20) (vC 18) xs).mpr (vx hx)) (vC 17) (tCons xs hx) ⟨20, t11⟩
  refine ⟨D, ⟨vC 11, by simp [dC], by simp [dC, Term.kind], decl t1, vF, by intro x y r1 r2 h; simp [tFalse] at h⟩, fun xs hx => ⟨⟨?_, ?_, nOr xs hx, ?_⟩, ?_, ?_⟩⟩
  · exact (value_rlist (vC 11) vF xs).mpr (vx hx)
  · refine curried_rlist rfl (by simp [dC, Term.kind]) rfl xs fun x hm => ?_
    rcases hx x hm with rfl | rfl <;> rfl
  · exact .const _ (by simp [tFalse, Term.kind, Lit.kind])
  · exact fun ys hy => nOr ys fun y hm => hx y (hy y hm)
  · exact ⟨⟨vC 20, by simp [dS, dC], by simp [dS, dC, Term.kind], decl t2, vC 18, by intro x y r1 r2 h; simp [dS, dC] at h⟩,
      fun x _ => .const _ (by simp [dC, Term.kind]), fun ys hy => nCons ys fun y hm => hx y (hy y hm)⟩

/-- C76: `($eo_list_meq or (or a b a) (or a a b))` and `(eo::list_meq or (or a b a) (or a a b))` after the run -/
example : ∃ p, defsRun = .ok p ∧ ∀ v, IsValue v →
    (EvaluatesTo (p.1.env exB) [] (meqDef dS (dC 11) (rlist (dC 11) tFalse [dC 13, dC 14, dC 13]) (rlist (dC 11) tFalse [dC 13, dC 13, dC 14])) v ↔
      EvaluatesTo (p.1.env exB) [] (.node EVAL_LIST_MEQ [dC 11, rlist (dC 11) tFalse [dC 13, dC 14, dC 13], rlist (dC 11) tFalse [dC 13, dC 13, dC 14]]) v) := by
  obtain ⟨p, hp, D, L, H⟩ := defs_hold
  refine ⟨p, hp, fun v hv => ?_⟩
  obtain ⟨Ha, _, Ea⟩ := H [dC 13, dC 14, dC 13] (by simp)
  obtain ⟨Hb, _, Eb⟩ := H [dC 13, dC 13, dC 14] (by simp)
  have inj := fun xs ys => (C14_injective (dC 11) tFalse L.nilNotApp xs ys).mp
  exact C76_meq D L (value_eval _ _ _ L.value) (value_eval _ _ _ Ha.value) (value_eval _ _ _ Hb.value) Ha Hb
    (fun xs h => by rw [← inj _ _ h]; decide) (fun xs h => by rw [← inj _ _ h]; decide)
    (fun xs h => by rw [← inj _ _ h]; exact Ea) (fun xs h => by rw [← inj _ _ h]; exact Eb) hv

end Ethos.Props
