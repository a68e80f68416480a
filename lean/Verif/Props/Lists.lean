import Verif.Lemmas.ListCount
/-
C14 - C18: f-lists and list operators.  `evalListOp k f nil isLeft args` is the part of the evaluation of a list
operator reached once the operator `f` and its nil terminator are known; `Verif.Props.Ops` (C18_dispatch) shows
when it is reached.  `o` is the operator argument as written.
-/
namespace Ethos.Props
open Kind Spec Term

/-! ### C14 -/

/-- **C14**.  The children of a right-associative f-list are read back in order. -/
theorem C14_children (f nil : Term) (hn : NotApp f nil) (xs : List Term) :
    getNAryChildren f nil false (rlist f nil xs) = some xs := by
  rw [rlist_eq_mkl]; exact getNAry_mkl f nil false hn xs

/-- **C14**.  A term is recognised as an f-list with children `xs` exactly when it is built that way. -/
theorem C14_recognised (f nil : Term) (hn : NotApp f nil) (t : Term) (hc : Curried f t) (xs : List Term) :
    getNAryChildren f nil false t = some xs ↔ t = rlist f nil xs := by
  constructor
  · intro h; rw [rlist_eq_mkl]; exact (getNAry_some hc h).1
  · rintro rfl; exact C14_children f nil hn xs

theorem C14_isList (f nil : Term) (hn : NotApp f nil) (t : Term) (hc : Curried f t) :
    isNAryList f nil false t = true ↔ ∃ xs, t = rlist f nil xs := by
  constructor
  · intro h
    simp [isNAryList] at h
    have := (naryLoop_spec f false t hc).1
    rw [h] at this
    exact ⟨_, by rw [rlist_eq_mkl]; exact this⟩
  · rintro ⟨xs, rfl⟩; rw [rlist_eq_mkl]; exact isNAry_mkl f nil false hn xs

/-- **C14**.  Two f-lists are equal exactly when their child lists are. -/
theorem C14_injective (f nil : Term) (hn : NotApp f nil) (xs ys : List Term) :
    rlist f nil xs = rlist f nil ys ↔ xs = ys := by
  constructor
  · intro h
    have h1 := C14_children f nil hn xs
    rw [h, C14_children f nil hn ys] at h1
    exact (Option.some.inj h1).symm
  · rintro rfl; rfl

/-- **C14**, left-associative: the children are read from the outside in, i.e. in reverse order. -/
theorem C14_left (f nil : Term) (hn : NotApp f nil) (xs : List Term) :
    getNAryChildren f nil true (llist f nil xs) = some xs.reverse := by
  rw [llist_eq_mkl]; exact getNAry_mkl f nil true hn xs.reverse

theorem C14_left_recognised (f nil : Term) (hn : NotApp f nil) (t : Term) (hc : Curried f t) (xs : List Term) :
    getNAryChildren f nil true t = some xs.reverse ↔ t = llist f nil xs := by
  constructor
  · intro h; rw [llist_eq_mkl]; exact (getNAry_some hc h).1
  · rintro rfl; exact C14_left f nil hn xs

/-- Without the assumption on the nil terminator an f-list is read differently from the way it was built:
if the terminator is itself an application of `f`, the empty list is not recognised as a list. -/
theorem C14_nil_refuted : ∃ f nil : Term, getNAryChildren f nil false (rlist f nil []) = none :=
  ⟨.sym CONST 0, bin (.sym CONST 0) (.sym CONST 1) (.sym CONST 2), rfl⟩

/-! Example data: operator `or`, terminator `false`, elements `a b c d`. -/
def fOr : Term := .sym CONST 0
def tNil : Term := .lit (.bool false)
def tA : Term := .sym CONST 1
def tB : Term := .sym CONST 2
def tC : Term := .sym CONST 3
def tD : Term := .sym CONST 4

theorem notApp_ex : NotApp fOr tNil := by intro x y r1 r2 h; cases h

theorem curried_ex : Curried fOr (rlist fOr tNil [tA, tB]) := by
  intro x y r1 r2 h
  simp only [rlist, bin, fOr, tNil, tA, tB] at h
  rcases h.inv with e | ⟨c, hc, h⟩
  · cases e; simp
  · simp only [children, List.mem_cons, List.not_mem_nil, or_false] at hc
    rcases hc with rfl | rfl
    · rcases h.inv with e | ⟨c, hc, h⟩
      · cases e
      · simp only [children, List.mem_cons, List.not_mem_nil, or_false] at hc
        rcases hc with rfl | rfl <;> (rcases h.inv with e | ⟨c, hc, _⟩ <;> first | (cases e) | (simp [children] at hc))
    · rcases h.inv with e | ⟨c, hc, h⟩
      · cases e; simp
      · simp only [children, List.mem_cons, List.not_mem_nil, or_false] at hc
        rcases hc with rfl | rfl
        · rcases h.inv with e | ⟨c, hc, h⟩
          · cases e
          · simp only [children, List.mem_cons, List.not_mem_nil, or_false] at hc
            rcases hc with rfl | rfl <;> (rcases h.inv with e | ⟨c, hc, _⟩ <;> first | (cases e) | (simp [children] at hc))
        · rcases h.inv with e | ⟨c, hc, _⟩ <;> first | (cases e) | (simp [children] at hc)

example : getNAryChildren fOr tNil false (rlist fOr tNil [tA, tB]) = some [tA, tB] :=
  (C14_recognised fOr tNil notApp_ex _ curried_ex _).mpr rfl
example : getNAryChildren fOr tNil false tA = none := rfl

/-! ### C15: right-associative operators -/

variable {f nil : Term} (hn : NotApp f nil)
include hn

/-- (eo::cons f x (f y1 .. yn)) = (f x y1 .. yn) -/
theorem C15_cons (o x : Term) (ys : List Term) :
    evalListOp EVAL_CONS f nil false [o, x, rlist f nil ys] = .val (rlist f nil (x :: ys)) := by
  simp only [evalListOp, argAt, Res.bind, List.getElem?_cons_succ, List.getElem?_cons_zero, rlist_eq_mkl,
    isNAry_mkl f nil false hn, if_true, prepend_mkl]
  simp

/-- (eo::list_concat f (f x1 .. xn) (f y1 .. ym)) = (f x1 .. xn y1 .. ym) -/
theorem C15_concat (o : Term) (xs ys : List Term) :
    evalListOp EVAL_LIST_CONCAT f nil false [o, rlist f nil xs, rlist f nil ys] = .val (rlist f nil (xs ++ ys)) := by
  simp only [evalListOp, argAt, Res.bind, List.getElem?_cons_succ, List.getElem?_cons_zero, rlist_eq_mkl,
    isNAry_mkl f nil false hn, if_true, getNAry_mkl f nil false hn, prepend_mkl, Bool.false_eq_true, if_false]
  split
  · rename_i h
    have : ys = [] := by
      have h1 := getNAry_mkl f nil false hn ys
      rw [h] at h1
      have h2 := getNAry_mkl f nil false hn []
      simp only [mkl, List.foldr_nil] at h2
      rw [h2] at h1
      exact (Option.some.inj h1).symm
    simp [this]
  · rfl

/-- (eo::list_len f (f x1 .. xn)) = n (as a 32-bit number) -/
theorem C15_len (o : Term) (xs : List Term) (hl : xs.length < 2^32) :
    evalListOp EVAL_LIST_LENGTH f nil false [o, rlist f nil xs] = .val (.lit (.num xs.length)) := by
  simp only [evalListOp, argAt, Res.bind, List.getElem?_cons_succ, List.getElem?_cons_zero, rlist_eq_mkl,
    getNAry_mkl f nil false hn]
  rw [u32_small _ hl]

/-- (eo::list_nth f (f x0 .. xn) i) = xi; does not evaluate outside the list -/
theorem C15_nth (o : Term) (xs : List Term) (hl : xs.length ≤ 2^32) (i : Int) :
    evalListOp EVAL_LIST_NTH f nil false [o, rlist f nil xs, .lit (.num i)] =
      if h : 0 ≤ i ∧ i < xs.length then .val (xs[i.toNat]'(by omega)) else .null := by
  simp only [evalListOp, argAt, Res.bind, List.getElem?_cons_succ, List.getElem?_cons_zero, rlist_eq_mkl,
    getNAry_mkl f nil false hn]
  by_cases hi : 0 ≤ i ∧ i < xs.length
  · have h32 : i < 2^32 := by omega
    have hfit : Integer.fitsUnsignedInt i = true := by
      simp only [Integer.fitsUnsignedInt, Bool.and_eq_true, decide_eq_true_eq]; exact ⟨hi.1, h32⟩
    have ht : Integer.toUnsignedInt i = i.toNat := by
      unfold Integer.toUnsignedInt; omega
    have hlt : i.toNat < xs.length := by omega
    rw [dif_pos hi, if_pos hfit, ht, List.getElem?_eq_getElem hlt]
  · rw [dif_neg hi]
    split
    · rename_i hfit
      simp only [Integer.fitsUnsignedInt, Bool.and_eq_true, decide_eq_true_eq] at hfit
      have ht : Integer.toUnsignedInt i = i.toNat := by
        unfold Integer.toUnsignedInt; omega
      have hge : xs.length ≤ i.toNat := by omega
      rw [ht, List.getElem?_eq_none hge]
    · rfl

omit hn in
theorem indexOf_some (x : Term) : ∀ (xs : List Term) (i : Nat), indexOf x xs = some i ↔ FirstAt x xs i
  | [], i => by simp [indexOf, FirstAt]
  | y :: xs, i => by
    rw [indexOf]
    split
    · rename_i h
      constructor
      · intro he; cases he; exact ⟨by simp [h], by simp⟩
      · rintro ⟨_, h2⟩
        cases i with
        | zero => rfl
        | succ i => exact absurd (by simp [h]) (h2 0 (by omega))
    · rename_i h
      cases i with
      | zero =>
        constructor
        · intro he; simp at he
        · rintro ⟨h1, _⟩; simp at h1; exact absurd h1 h
      | succ i =>
        simp only [Option.map_eq_some_iff, Nat.add_right_cancel_iff, exists_eq_right]
        rw [indexOf_some x xs i]
        constructor
        · rintro ⟨h1, h2⟩
          refine ⟨by simpa using h1, ?_⟩
          intro j hj
          cases j with
          | zero => simpa using h
          | succ j => simpa using h2 j (by omega)
        · rintro ⟨h1, h2⟩
          exact ⟨by simpa using h1, fun j hj => by simpa using h2 (j+1) (by omega)⟩

omit hn in
theorem indexOf_none (x : Term) : ∀ (xs : List Term), indexOf x xs = none ↔ x ∉ xs
  | [] => by simp [indexOf]
  | y :: xs => by
    rw [indexOf]
    split
    · rename_i h; simp [h]
    · rename_i h
      have h' : ¬ x = y := fun e => h e.symm
      simp [indexOf_none x xs, h']

/-- (eo::list_find f (f x0 .. xn) x) is the position of the first occurrence -/
theorem C15_find_some (o x : Term) (xs : List Term) (hl : xs.length ≤ 2^32) (i : Nat) (hi : FirstAt x xs i) :
    evalListOp EVAL_LIST_FIND f nil false [o, rlist f nil xs, x] = .val (.lit (.num i)) := by
  have h1 := (indexOf_some x xs i).mpr hi
  have hlt : i < xs.length := by
    have := hi.1
    rcases Nat.lt_or_ge i xs.length with h | h
    · exact h
    · rw [List.getElem?_eq_none h] at this; cases this
  simp only [evalListOp, argAt, Res.bind, List.getElem?_cons_succ, List.getElem?_cons_zero, rlist_eq_mkl,
    getNAry_mkl f nil false hn, h1]
  rw [u32_small i (by omega)]

/-- and -1 exactly when it does not occur -/
theorem C15_find_none (o x : Term) (xs : List Term) (hx : x ∉ xs) :
    evalListOp EVAL_LIST_FIND f nil false [o, rlist f nil xs, x] = .val (.lit (.num (-1))) := by
  simp only [evalListOp, argAt, Res.bind, List.getElem?_cons_succ, List.getElem?_cons_zero, rlist_eq_mkl,
    getNAry_mkl f nil false hn, (indexOf_none x xs).mpr hx]

/-- (eo::list_rev f (f x1 .. xn)) = (f xn .. x1) -/
theorem C15_rev (o : Term) (xs : List Term) :
    evalListOp EVAL_LIST_REV f nil false [o, rlist f nil xs] = .val (rlist f nil xs.reverse) := by
  simp only [evalListOp, argAt, Res.bind, List.getElem?_cons_succ, List.getElem?_cons_zero, rlist_eq_mkl,
    listRev, getNAry_mkl f nil false hn]
  have := prepend_mkl false f nil [] xs.reverse
  simp only [mkl, List.foldr_nil] at this ⊢
  rw [this]; simp

omit hn in
theorem eraseFirst_split (x : Term) : ∀ (a b : List Term), x ∉ a → eraseFirst x (a ++ x :: b) = a ++ b
  | [], b, _ => by simp [eraseFirst]
  | y :: a, b, h => by
    simp at h
    have : y ≠ x := fun e => h.1 e.symm
    simp [eraseFirst, this, eraseFirst_split x a b h.2]

omit hn in
theorem eraseFirst_of_not_mem (x : Term) : ∀ (a : List Term), x ∉ a → eraseFirst x a = a
  | [], _ => rfl
  | y :: a, h => by
    simp at h
    have : y ≠ x := fun e => h.1 e.symm
    simp [eraseFirst, this, eraseFirst_of_not_mem x a h.2]

/-- (eo::list_erase f (f x1 .. xn) x): the first occurrence of `x` is removed -/
theorem C15_erase (o x : Term) (xs : List Term) :
    evalListOp EVAL_LIST_ERASE f nil false [o, rlist f nil xs, x] = .val (rlist f nil (eraseFirst x xs)) := by
  simp only [evalListOp, argAt, Res.bind, List.getElem?_cons_succ, List.getElem?_cons_zero, rlist_eq_mkl,
    listErase, getNAry_mkl f nil false hn]
  obtain ⟨h1, h2⟩ := eraseLoop_first x xs []
  by_cases hx : x ∈ xs
  · obtain ⟨a, b, rfl, e2, e3⟩ := h2 hx
    simp only [List.length_nil, List.nil_append] at e3
    rw [e3]
    simp only [Nat.zero_add, Nat.add_eq_zero_iff, Nat.one_ne_zero, and_false, Bool.false_eq_true, if_false]
    rw [nthTail_mkl false f nil _ _ (by simp), prepend_mkl, eraseFirst_split x a b e2]
    have : (a ++ x :: b).drop (a.length + 1) = b := by
      rw [show a ++ x :: b = (a ++ [x]) ++ b by simp, List.drop_left' (by simp)]
    rw [this]; simp
  · have := h1 hx
    simp only [List.length_nil, List.nil_append] at this
    rw [this, eraseFirst_of_not_mem x xs hx]
    simp

/-- (eo::list_erase_all f (f x1 .. xn) x): all occurrences of `x` are removed, order kept -/
theorem C15_erase_all (o x : Term) (xs : List Term) :
    evalListOp EVAL_LIST_ERASE_ALL f nil false [o, rlist f nil xs, x] =
      .val (rlist f nil (xs.filter (fun y => decide (y ≠ x)))) := by
  simp only [evalListOp, argAt, Res.bind, List.getElem?_cons_succ, List.getElem?_cons_zero, rlist_eq_mkl,
    listErase, getNAry_mkl f nil false hn]
  obtain ⟨r, ci, cs, h1, h2, h3⟩ := eraseLoop_all x xs [] [] 0 0 Share.init
  simp only [List.length_nil, List.nil_append] at h1 h2 h3
  rw [h1]
  simp only [if_true]
  split
  · rename_i h0
    subst h0
    rw [← h3, h2.unchanged]
  · rw [nthTail_mkl false f nil _ _ h2.1, prepend_mkl]
    simp only [Bool.false_eq_true, if_false]
    rw [h2.result, h3]

/-- (eo::list_setof f (f x1 .. xn)): every element beyond its first occurrence is dropped, order kept -/
theorem C15_setof (o : Term) (xs : List Term) :
    evalListOp EVAL_LIST_SETOF f nil false [o, rlist f nil xs] = .val (rlist f nil (setOf xs)) := by
  simp only [evalListOp, argAt, Res.bind, List.getElem?_cons_succ, List.getElem?_cons_zero, rlist_eq_mkl,
    listSetOf, getNAry_mkl f nil false hn]
  obtain ⟨r, ci, cs, h1, h2, h3⟩ := setOfLoop_spec xs [] [] [] 0 0 Share.init
  have hf : xs.filter (fun y => decide (y ∉ ([] : List Term))) = xs := by
    rw [List.filter_eq_self]; simp
  rw [hf] at h3
  simp only [List.length_nil, List.nil_append] at h1 h2 h3
  rw [h1]
  simp only
  split
  · rename_i h0
    subst h0
    rw [← h3, h2.unchanged]
  · rw [nthTail_mkl false f nil _ _ h2.1, prepend_mkl]
    simp only [Bool.false_eq_true, if_false]
    rw [h2.result, h3]

/-- (eo::list_singleton_elim f t): the child of a one-element list, any other f-list unchanged (C18) -/
theorem C18_singleton_elim (o : Term) (xs : List Term) :
    evalListOp EVAL_LIST_SINGLETON_ELIM f nil false [o, rlist f nil xs] =
      match xs with
      | [x] => .val x
      | _ => .val (rlist f nil xs) := by
  simp only [evalListOp, argAt, Res.bind, List.getElem?_cons_succ, List.getElem?_cons_zero, rlist_eq_mkl,
    getNAry_mkl f nil false hn]
  all_goals rfl

/-! ### C16: multiset operators -/

omit hn in
theorem mult_perm_iff (xs ys : List Term) : xs.Perm ys ↔ ∀ x, mult x xs = mult x ys := by
  have hcount : ∀ x l, mult x l = List.count x l := by
    intro x l
    induction l with
    | nil => simp [mult]
    | cons y l ih =>
      rw [mult, ih, List.count_cons]
      by_cases h : y = x
      · subst h; simp; omega
      · have : (y == x) = false := by simpa using h
        simp [this, h]
  simp only [hcount]
  exact List.perm_iff_count

omit hn in
theorem mkl_inj_right {isLeft : Bool} (hn : NotApp f nil) {xs ys : List Term}
    (h : mkl isLeft f nil xs = mkl isLeft f nil ys) : xs = ys := by
  have h1 := getNAry_mkl f nil isLeft hn xs
  rw [h, getNAry_mkl f nil isLeft hn ys] at h1
  exact (Option.some.inj h1).symm

theorem listMPred_incl (isLeft : Bool) (xs ys : List Term) (hx : xs.length < 2^32) (hy : ys.length < 2^32) :
    listMPred false f nil isLeft (mkl isLeft f nil xs) (mkl isLeft f nil ys) =
      .val (.lit (.bool (decide (∀ x ∈ xs, mult x xs ≤ mult x ys)))) := by
  have hall : (∀ x ∈ xs, mult x xs ≤ mult x ys) ↔ ∀ x, mult x xs ≤ mult x ys := by
    constructor
    · intro h x
      by_cases hx : x ∈ xs
      · exact h x hx
      · have := mt (mult_pos_iff x xs).mp hx; omega
    · intro h x _; exact h x
  have h1 := counts_spec xs hx
  have h2 := counts_spec ys hy
  simp only [listMPred, getNAry_mkl f nil isLeft hn, Bool.false_and, Bool.false_eq_true, if_false]
  split
  · rename_i he
    have := mkl_inj_right hn he
    subst this
    simp
  · split
    · rename_i ha
      have := mt (mpred_incl h1 h2).mpr (by simpa using ha)
      simp only [decide_eq_false (mt hall.mp this)]
    · rename_i ha
      have := (mpred_incl h1 h2).mp (by simpa using ha)
      simp only [decide_eq_true (hall.mpr this)]

theorem listMPred_eq (isLeft : Bool) (xs ys : List Term) (hx : xs.length < 2^32) (hy : ys.length < 2^32) :
    ∃ b, listMPred true f nil isLeft (mkl isLeft f nil xs) (mkl isLeft f nil ys) = .val (.lit (.bool b)) ∧
      (b = true ↔ xs.Perm ys) := by
  have h1 := counts_spec xs hx
  have h2 := counts_spec ys hy
  have key := mpred_eq h1 h2
  simp only [listMPred, getNAry_mkl f nil isLeft hn, Bool.true_and, if_true]
  split
  · rename_i he
    have := mkl_inj_right hn he
    subst this
    exact ⟨true, rfl, by simp⟩
  · split
    · rename_i ha
      refine ⟨false, rfl, ?_⟩
      rw [mult_perm_iff, ← key]
      simp at ha
      simp [ha]
    · rename_i ha
      simp at ha
      split
      · rename_i hb
        refine ⟨false, rfl, ?_⟩
        rw [mult_perm_iff, ← key]
        simp only [Bool.false_eq_true, false_iff, not_and]
        intro _
        rw [hb]
        simp
      · rename_i hb
        refine ⟨true, rfl, ?_⟩
        rw [mult_perm_iff, ← key]
        simp only [true_iff]
        exact ⟨ha, by simpa using hb⟩

/-- **C16**.  (eo::list_minclude f l1 l2) is true exactly when each element of `l1` occurs in `l2` at least
as often as in `l1`. -/
theorem C16_minclude (o : Term) (xs ys : List Term) (hx : xs.length < 2^32) (hy : ys.length < 2^32) :
    evalListOp EVAL_LIST_MINCLUDE f nil false [o, rlist f nil xs, rlist f nil ys] =
      .val (.lit (.bool (decide (∀ x ∈ xs, mult x xs ≤ mult x ys)))) := by
  simp only [evalListOp, argAt, Res.bind, List.getElem?_cons_succ, List.getElem?_cons_zero, rlist_eq_mkl]
  exact listMPred_incl hn false xs ys hx hy

/-- **C16**.  (eo::list_meq f l1 l2) is true exactly when the child lists are permutations of each other. -/
theorem C16_meq (o : Term) (xs ys : List Term) (hx : xs.length < 2^32) (hy : ys.length < 2^32) :
    ∃ b, evalListOp EVAL_LIST_MEQ f nil false [o, rlist f nil xs, rlist f nil ys] = .val (.lit (.bool b)) ∧
      (b = true ↔ xs.Perm ys) := by
  simp only [evalListOp, argAt, Res.bind, List.getElem?_cons_succ, List.getElem?_cons_zero, rlist_eq_mkl]
  exact listMPred_eq hn false xs ys hx hy

/-- exact result of eo::list_diff / eo::list_inter, for both associativities -/
theorem listDiffInter_spec (isDiff isLeft : Bool) (xs ys : List Term) (hy : ys.length < 2^32) :
    ∃ keep rest : List Term, keep ++ rest = diffSpec isDiff xs ys ∧
      listDiffInter isDiff f nil isLeft (mkl isLeft f nil xs) (mkl isLeft f nil ys) =
        .val (mkl isLeft f nil ((if isLeft then keep.reverse else keep) ++ rest)) := by
  simp only [listDiffInter, getNAry_mkl f nil isLeft hn]
  split
  · rename_i he
    have := mkl_inj_right hn he
    subst this
    cases isDiff
    · exact ⟨[], xs, by simp [diffSpec, minter_self], by simp⟩
    · exact ⟨[], [], by simp [diffSpec, mdiff_self], by simp [mkl]⟩
  · obtain ⟨r, ci, cs, h1, h2, h3⟩ := diffLoop_spec isDiff xs [] (counts ys) ys [] 0 0 Share.init (counts_spec ys hy) hy
    simp only [List.length_nil, List.nil_append] at h1 h2 h3
    rw [h1]
    simp only
    split
    · rename_i h0
      subst h0
      refine ⟨[], xs, by rw [← h3, h2.unchanged]; simp, by simp⟩
    · rw [nthTail_mkl isLeft f nil _ _ h2.1, prepend_mkl]
      exact ⟨r.take cs, xs.drop ci, by rw [h2.result, h3], rfl⟩

/-- **C16**.  (eo::list_diff f l1 l2) -/
theorem C16_diff (o : Term) (xs ys : List Term) (hy : ys.length < 2^32) :
    evalListOp EVAL_LIST_DIFF f nil false [o, rlist f nil xs, rlist f nil ys] = .val (rlist f nil (mdiff xs ys)) := by
  simp only [evalListOp, argAt, Res.bind, List.getElem?_cons_succ, List.getElem?_cons_zero, rlist_eq_mkl]
  obtain ⟨k, r, h1, h2⟩ := listDiffInter_spec hn true false xs ys hy
  rw [h2]
  simp only [Bool.false_eq_true, if_false, h1]
  rfl

/-- **C16**.  (eo::list_inter f l1 l2) -/
theorem C16_inter (o : Term) (xs ys : List Term) (hy : ys.length < 2^32) :
    evalListOp EVAL_LIST_INTER f nil false [o, rlist f nil xs, rlist f nil ys] = .val (rlist f nil (minter xs ys)) := by
  simp only [evalListOp, argAt, Res.bind, List.getElem?_cons_succ, List.getElem?_cons_zero, rlist_eq_mkl]
  obtain ⟨k, r, h1, h2⟩ := listDiffInter_spec hn false false xs ys hy
  rw [h2]
  simp only [Bool.false_eq_true, if_false, h1]
  rfl

omit hn in
/-- the specification of difference and intersection is the usual one on multiplicities -/
theorem C16_diff_mult (x : Term) : ∀ (xs ys : List Term), mult x (mdiff xs ys) = mult x xs - mult x ys
  | [], ys => by simp [mdiff, mult]
  | y :: xs, ys => by
    rw [mdiff]
    split
    · rename_i h
      rw [C16_diff_mult x xs, mult_eraseFirst, mult]
      have hp := (mult_pos_iff y ys).mpr h
      by_cases hx : x = y
      · subst hx; simp; omega
      · have : y ≠ x := fun e => hx e.symm
        simp [hx, this]
    · rename_i h
      rw [mult, C16_diff_mult x xs, mult]
      by_cases hx : y = x
      · subst hx
        have := mt (mult_pos_iff y ys).mp h
        simp; omega
      · simp [hx]

omit hn in
theorem C16_inter_mult (x : Term) : ∀ (xs ys : List Term), mult x (minter xs ys) = min (mult x xs) (mult x ys)
  | [], ys => by simp [minter, mult]
  | y :: xs, ys => by
    rw [minter]
    split
    · rename_i h
      rw [mult, C16_inter_mult x xs, mult_eraseFirst, mult]
      have hp := (mult_pos_iff y ys).mpr h
      by_cases hx : x = y
      · subst hx; simp; omega
      · have : y ≠ x := fun e => hx e.symm
        simp [hx, this]
    · rename_i h
      rw [C16_inter_mult x xs, mult]
      by_cases hx : y = x
      · subst hx
        have := mt (mult_pos_iff y ys).mp h
        simp; omega
      · simp [hx]

omit hn

/-- the manual's examples are instances -/
example : evalListOp EVAL_LIST_DIFF fOr tNil false [fOr, rlist fOr tNil [tA, tB, tA, tC, tA], rlist fOr tNil [tA, tA]]
    = .val (rlist fOr tNil [tB, tC, tA]) := C16_diff notApp_ex fOr _ _ (by decide)
example : evalListOp EVAL_LIST_SETOF fOr tNil false [fOr, rlist fOr tNil [tA, tB, tA, tC, tA, tB, tC]]
    = .val (rlist fOr tNil [tA, tB, tC]) := C15_setof notApp_ex fOr _
example : evalListOp EVAL_LIST_NTH fOr tNil false [fOr, rlist fOr tNil [tA, tB], .lit (.num 1)] = .val tB :=
  C15_nth notApp_ex fOr [tA, tB] (by decide) 1

end Ethos.Props
