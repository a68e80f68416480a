import Verif.Props.Lists
/-
C17: left-associative operators.  C18: list operators do not evaluate on non-lists.

The manual says that evaluation for left-associative operators is "defined analogously".  A left-associative
f-list with children `x1 .. xn` is `(f ... (f (f nil x1) x2) ... xn)`, the term denoted by `(f x1 ... xn)`.
The theorems `C17_*_partial` give, for every list, the exact result the code computes; the theorems
`C17_*_refuted` show by a concrete list that this is not the analogous result.
-/
namespace Ethos.Props
open Kind Spec Term

variable {f nil : Term} (hn : NotApp f nil)
include hn

/-- the number of children is right -/
theorem C17_len (o : Term) (xs : List Term) (hl : xs.length < 2^32) :
    evalListOp EVAL_LIST_LENGTH f nil true [o, llist f nil xs] = .val (.lit (.num xs.length)) := by
  simp only [evalListOp, argAt, Res.bind, List.getElem?_cons_succ, List.getElem?_cons_zero, llist_eq_mkl,
    getNAry_mkl f nil true hn, List.length_reverse]
  rw [u32_small _ hl]

/-- multiset inclusion is right -/
theorem C17_minclude (o : Term) (xs ys : List Term) (hx : xs.length < 2^32) (hy : ys.length < 2^32) :
    evalListOp EVAL_LIST_MINCLUDE f nil true [o, llist f nil xs, llist f nil ys] =
      .val (.lit (.bool (decide (∀ x ∈ xs, mult x xs ≤ mult x ys)))) := by
  have hr : ∀ (x : Term) l, mult x (List.reverse l) = mult x l := by
    intro x l; exact ((mult_perm_iff _ _).mp (List.reverse_perm l)) x
  simp only [evalListOp, argAt, Res.bind, List.getElem?_cons_succ, List.getElem?_cons_zero, llist_eq_mkl]
  rw [listMPred_incl hn true _ _ (by simpa using hx) (by simpa using hy)]
  simp [hr]

/-- multiset equality is right -/
theorem C17_meq (o : Term) (xs ys : List Term) (hx : xs.length < 2^32) (hy : ys.length < 2^32) :
    ∃ b, evalListOp EVAL_LIST_MEQ f nil true [o, llist f nil xs, llist f nil ys] = .val (.lit (.bool b)) ∧
      (b = true ↔ xs.Perm ys) := by
  simp only [evalListOp, argAt, Res.bind, List.getElem?_cons_succ, List.getElem?_cons_zero, llist_eq_mkl]
  obtain ⟨b, h1, h2⟩ := listMPred_eq hn true xs.reverse ys.reverse (by simpa using hx) (by simpa using hy)
  refine ⟨b, h1, ?_⟩
  rw [h2]
  exact ⟨fun h => (List.reverse_perm xs).symm.trans (h.trans (List.reverse_perm ys)),
    fun h => (List.reverse_perm xs).trans (h.trans (List.reverse_perm ys).symm)⟩

/-- eo::cons adds an outermost element, i.e. at the end of the child list -/
theorem C17_cons_partial (o x : Term) (ys : List Term) :
    evalListOp EVAL_CONS f nil true [o, x, llist f nil ys] = .val (llist f nil (ys ++ [x])) := by
  simp only [evalListOp, argAt, Res.bind, List.getElem?_cons_succ, List.getElem?_cons_zero, llist_eq_mkl,
    isNAry_mkl f nil true hn, if_true, prepend_mkl]
  simp

omit hn in
theorem fits_small (i : Nat) (h : i < 2^32) : Integer.fitsUnsignedInt (i : Int) = true ∧ Integer.toUnsignedInt (i : Int) = i := by
  constructor
  · simp only [Integer.fitsUnsignedInt, Bool.and_eq_true, decide_eq_true_eq]
    exact ⟨Int.natCast_nonneg i, by exact_mod_cast h⟩
  · unfold Integer.toUnsignedInt
    rw [Int.natAbs_natCast]
    exact Nat.mod_eq_of_lt h

theorem nth_left_aux (o : Term) (xs : List Term) (z : Int) (hfit : Integer.fitsUnsignedInt z = true) (i : Nat)
    (ht : Integer.toUnsignedInt z = i) (t : Term) (hget : xs.reverse[i]? = some t) :
    evalListOp EVAL_LIST_NTH f nil true [o, llist f nil xs, .lit (.num z)] = .val t := by
  simp only [evalListOp, argAt, Res.bind, List.getElem?_cons_succ, List.getElem?_cons_zero, llist_eq_mkl,
    getNAry_mkl f nil true hn, hfit, if_true, ht, hget]

/-- eo::list_nth counts from the outside, i.e. from the end of the child list -/
theorem C17_nth_partial (o : Term) (xs : List Term) (i : Nat) (hi : i < xs.length) (h32 : i < 2^32) :
    evalListOp EVAL_LIST_NTH f nil true [o, llist f nil xs, .lit (.num i)] =
      .val (xs[xs.length - 1 - i]'(by clear h32; omega)) := by
  obtain ⟨hfit, ht⟩ := fits_small i h32
  have hget : xs.reverse[i]? = some (xs[xs.length - 1 - i]'(by clear h32 hfit ht; omega)) := by
    rw [List.getElem?_eq_getElem (by simpa using hi)]
    simp
  exact nth_left_aux hn o xs i hfit i ht _ hget

/-- eo::list_concat appends the children of the second list in reverse order (unless the first is nil) -/
theorem C17_concat_partial (o : Term) (xs ys : List Term) :
    evalListOp EVAL_LIST_CONCAT f nil true [o, llist f nil xs, llist f nil ys] =
      .val (llist f nil (if xs = [] then ys else xs ++ ys.reverse)) := by
  simp only [evalListOp, argAt, Res.bind, List.getElem?_cons_succ, List.getElem?_cons_zero, llist_eq_mkl,
    isNAry_mkl f nil true hn, if_true, getNAry_mkl f nil true hn, prepend_mkl]
  by_cases hx : xs = []
  · subst hx; simp [mkl]
  · have : mkl true f nil xs.reverse ≠ nil := by
      intro h
      have h1 := mkl_inj_right (isLeft := true) hn (xs := xs.reverse) (ys := []) (by simpa [mkl] using h)
      simp at h1
      exact hx h1
    rw [if_neg this, if_neg hx]
    simp

/-- eo::list_rev is the identity -/
theorem C17_rev_partial (o : Term) (xs : List Term) :
    evalListOp EVAL_LIST_REV f nil true [o, llist f nil xs] = .val (llist f nil xs) := by
  simp only [evalListOp, argAt, Res.bind, List.getElem?_cons_succ, List.getElem?_cons_zero, llist_eq_mkl,
    listRev, getNAry_mkl f nil true hn]
  have := prepend_mkl true f nil [] xs.reverse.reverse
  simp only [mkl, List.foldr_nil] at this ⊢
  rw [this]; simp

omit hn in
theorem Share.left {P r : List Term} {ci cs : Nat} (h : Share P r ci cs) :
    ((r.take cs).reverse ++ P.drop ci).Perm r := by
  have h1 := h.result
  conv => rhs; rw [← h1]
  exact List.Perm.append_right _ (List.reverse_perm _)

/-- eo::list_erase_all keeps the right elements (with the right multiplicity), possibly in another order -/
theorem C17_erase_all_partial (o x : Term) (xs : List Term) :
    ∃ ys, evalListOp EVAL_LIST_ERASE_ALL f nil true [o, llist f nil xs, x] = .val (llist f nil ys) ∧
      ys.Perm (xs.filter (fun y => decide (y ≠ x))) := by
  simp only [evalListOp, argAt, Res.bind, List.getElem?_cons_succ, List.getElem?_cons_zero, llist_eq_mkl,
    listErase, getNAry_mkl f nil true hn]
  obtain ⟨r, ci, cs, h1, h2, h3⟩ := eraseLoop_all x xs.reverse [] [] 0 0 Share.init
  simp only [List.length_nil, List.nil_append] at h1 h2 h3
  rw [h1]
  simp only [if_true]
  have hp : r.Perm (xs.filter (fun y => decide (y ≠ x))) := by
    rw [h3]; exact (List.reverse_perm xs).filter _
  split
  · rename_i h0
    subst h0
    refine ⟨xs, rfl, ?_⟩
    have := h2.unchanged
    rw [this] at hp
    exact (List.reverse_perm xs).symm.trans hp
  · rw [nthTail_mkl true f nil _ _ h2.1, prepend_mkl]
    simp only [if_true]
    refine ⟨((r.take cs).reverse ++ xs.reverse.drop ci).reverse, by simp, ?_⟩
    exact (List.reverse_perm _).trans ((Share.left h2).trans hp)

/-- eo::list_diff and eo::list_inter keep the right elements with the right multiplicity -/
theorem C17_diff_inter_partial (o x : Term) (xs ys : List Term) (hy : ys.length < 2^32) :
    (∃ zs, evalListOp EVAL_LIST_DIFF f nil true [o, llist f nil xs, llist f nil ys] = .val (llist f nil zs) ∧
      mult x zs = mult x xs - mult x ys) ∧
    (∃ zs, evalListOp EVAL_LIST_INTER f nil true [o, llist f nil xs, llist f nil ys] = .val (llist f nil zs) ∧
      mult x zs = min (mult x xs) (mult x ys)) := by
  have hr : ∀ l, mult x (List.reverse l) = mult x l := by
    intro l; exact ((mult_perm_iff _ _).mp (List.reverse_perm l)) x
  simp only [evalListOp, argAt, Res.bind, List.getElem?_cons_succ, List.getElem?_cons_zero, llist_eq_mkl]
  constructor
  · obtain ⟨k, r, h1, h2⟩ := listDiffInter_spec hn true true xs.reverse ys.reverse (by simpa using hy)
    refine ⟨(k.reverse ++ r).reverse, by rw [h2]; simp, ?_⟩
    rw [hr, mult_append, hr, ← mult_append, h1]
    simp [diffSpec, C16_diff_mult, hr]
  · obtain ⟨k, r, h1, h2⟩ := listDiffInter_spec hn false true xs.reverse ys.reverse (by simpa using hy)
    refine ⟨(k.reverse ++ r).reverse, by rw [h2]; simp, ?_⟩
    rw [hr, mult_append, hr, ← mult_append, h1]
    simp [diffSpec, C16_inter_mult, hr]

omit hn

/-- eo::list_rev of the left-associative list `a b` is not `b a` -/
theorem C17_rev_refuted :
    evalListOp EVAL_LIST_REV fOr tNil true [fOr, llist fOr tNil [tA, tB]] ≠ .val (llist fOr tNil [tB, tA]) := by
  decide

/-- eo::list_concat of `a` and `b c` is neither `a b c` nor `b c a` -/
theorem C17_concat_refuted :
    evalListOp EVAL_LIST_CONCAT fOr tNil true [fOr, llist fOr tNil [tA], llist fOr tNil [tB, tC]]
      = .val (llist fOr tNil [tA, tC, tB]) := by
  decide

/-- eo::list_erase of `a` from `a b c` reorders the remaining elements -/
theorem C17_erase_refuted :
    evalListOp EVAL_LIST_ERASE fOr tNil true [fOr, llist fOr tNil [tA, tB, tC], tA]
      = .val (llist fOr tNil [tC, tB]) := by
  decide

/-- eo::list_setof and eo::list_diff reorder too: the distinct elements are `a b c` from the inside (`a c b` from
the outside), the result has `a c b` from the inside -/
theorem C17_setof_refuted :
    evalListOp EVAL_LIST_SETOF fOr tNil true [fOr, llist fOr tNil [tA, tB, tC, tC, tA]]
      = .val (llist fOr tNil [tA, tC, tB]) := by
  decide

theorem C17_diff_refuted :
    evalListOp EVAL_LIST_DIFF fOr tNil true [fOr, llist fOr tNil [tA, tB, tC], llist fOr tNil [tA]]
      = .val (llist fOr tNil [tC, tB]) := by
  decide

/-! ### C18 -/

/-- the list operators that take a list in each of the positions given -/
def listPositions : Kind → List Nat
  | EVAL_CONS => [2]
  | EVAL_LIST_CONCAT => [1, 2]
  | EVAL_LIST_LENGTH | EVAL_LIST_NTH | EVAL_LIST_FIND | EVAL_LIST_ERASE | EVAL_LIST_ERASE_ALL
  | EVAL_LIST_REV | EVAL_LIST_SETOF | EVAL_LIST_SINGLETON_ELIM => [1]
  | EVAL_LIST_MINCLUDE | EVAL_LIST_MEQ | EVAL_LIST_DIFF | EVAL_LIST_INTER => [1, 2]
  | _ => []

/-- **C18**.  If an argument in a list position is not an f-list (with terminator `nil`), the operator does
not evaluate, for both associativities and any other arguments. -/
theorem C18_non_list (k : Kind) (isLeft : Bool) (o a b : Term) (i : Nat) (hi : i ∈ listPositions k)
    (hnl : getNAryChildren f nil isLeft (if i = 1 then a else b) = none) :
    evalListOp k f nil isLeft [o, a, b] = .null := by
  have hl : ∀ t, getNAryChildren f nil isLeft t = none → isNAryList f nil isLeft t = false := by
    intro t h
    simp only [getNAryChildren] at h
    split at h
    · rename_i hne
      simpa [isNAryList] using hne
    · cases h
  cases k <;> simp only [listPositions, List.mem_cons, List.not_mem_nil, or_false] at hi
  case EVAL_LIST_NTH =>
    subst hi
    simp only [if_true] at hnl
    simp only [evalListOp, argAt, Res.bind, List.getElem?_cons_succ, List.getElem?_cons_zero, hnl]
    split
    · split <;> rfl
    · rfl
  case EVAL_CONS =>
    subst hi
    simp at hnl
    simp [evalListOp, argAt, Res.bind, hl _ hnl]
  case EVAL_LIST_CONCAT =>
    rcases hi with rfl | rfl <;> simp at hnl <;> cases isLeft <;>
      simp [evalListOp, argAt, Res.bind, hl _ hnl, hnl]
  all_goals
    first
    | (subst hi; simp only [if_true] at hnl
       simp [evalListOp, argAt, Res.bind, hnl, listErase, listRev, listSetOf]; done)
    | (rcases hi with rfl | rfl
       · simp at hnl
         simp [evalListOp, argAt, Res.bind, hnl, listMPred, listDiffInter]
       · simp at hnl
         simp only [evalListOp, argAt, Res.bind, List.getElem?_cons_succ, List.getElem?_cons_zero, hnl, listMPred, listDiffInter]
         split <;> rfl)

example : evalListOp EVAL_LIST_REV fOr tNil false [fOr, tA] = .null := rfl
example : getNAryChildren fOr tNil false (if 1 = 1 then tA else tB) = none := rfl

end Ethos.Props
