import Verif.Lemmas.Preserve
/-
What the list operators build: elements of their arguments, put in front of a tail of one of them.
-/
namespace Ethos.Props
open Ethos Kind

/-- `E` holds of the elements and `L` of the lists of `op`: the terminator is a list, an element before a list is a list, and both
parts of a list that is an application of `op` are an element and a list -/
structure ListClosed (op nil : Term) (left : Bool) (E L : Term → Prop) : Prop where
  nil : L nil
  app : ∀ x l, E x → L l → L (if left then app2 op l x else app2 op x l)
  inv : ∀ a b r1 r2, L (.node APPLY (.node APPLY (op :: a :: r1) :: b :: r2)) → if left then L a ∧ E b else E a ∧ L b

variable {op nil : Term} {left : Bool} {E L : Term → Prop}

theorem naryLoop_closed (C : ListClosed op nil left E L) (t : Term) (h : L t) :
    (∀ c ∈ (naryLoop op left t).1, E c) ∧ L (naryLoop op left t).2 := by
  fun_induction naryLoop op left t with
  | case1 x r1 y r2 _ cs e heq ih =>
    have h1 := C.inv _ _ _ _ h
    simp_all
  | case2 x r1 y r2 hl cs e heq ih =>
    have h1 := C.inv _ _ _ _ h
    simp_all
  | case3 => exact ⟨by simp, h⟩
  | case4 => exact ⟨by simp, h⟩

theorem nthTail_closed (C : ListClosed op nil left E L) : ∀ (n : Nat) (t : Term), L t → n ≤ (naryLoop op left t).1.length →
    L (nthTail left n t) := by
  intro n
  induction n with
  | zero => intro t h _; simpa [nthTail] using h
  | succ n ih =>
    intro t h hn
    unfold naryLoop at hn
    split at hn
    · rename_i o a r1 b r2
      by_cases ho : o = op
      · subst ho
        have h1 := C.inv _ _ _ _ h
        rw [nthTail]
        cases left with
        | true => exact ih _ h1.1 (by simpa using hn)
        | false => exact ih _ h1.2 (by simpa using hn)
      · simp [ho] at hn
    · simp at hn

theorem children_closed (C : ListClosed op nil left E L) {t : Term} {cs : List Term} (h : L t) (hc : getNAryChildren op nil left t = some cs) :
    (∀ c ∈ cs, E c) ∧ (naryLoop op left t).1 = cs := by
  have := (naryLoop_closed C t h).1
  unfold getNAryChildren at hc
  simp only at hc
  split at hc
  · cases hc
  · cases hc; exact ⟨this, rfl⟩

theorem prepend_closed (C : ListClosed op nil left E L) {ret : Term} {hs : List Term} (hr : L ret) (hh : ∀ c ∈ hs, E c) :
    L (prependNAry op left ret hs) := by
  have ha := C.app
  unfold prependNAry
  cases left with
  | true =>
    simp only [if_true] at ha ⊢
    induction hs generalizing ret with
    | nil => exact hr
    | cons a hs ih => exact ih (ha _ _ (hh a (by simp)) hr) fun c hc => hh c (by simp [hc])
  | false =>
    simp only [Bool.false_eq_true, if_false] at ha ⊢
    induction hs with
    | nil => exact hr
    | cons a hs ih => exact ha _ _ (hh a (by simp)) (ih fun c hc => hh c (by simp [hc]))

theorem eraseLoop_index (x : Term) (all : Bool) (hs : List Term) (i : Nat) (res : List Term) (ci cs : Nat) :
    (eraseLoop x all hs i res ci cs).2.1 ≤ max ci (i + hs.length) := by
  fun_induction eraseLoop x all hs i res ci cs <;> simp_all <;> omega

theorem setOfLoop_index (hs : List Term) (i : Nat) (seen res : List Term) (ci cs : Nat) :
    (setOfLoop hs i seen res ci cs).2.1 ≤ max ci (i + hs.length) := by
  fun_induction setOfLoop hs i seen res ci cs <;> simp_all <;> omega

theorem diffLoop_index (d : Bool) (hs : List Term) (i : Nat) (c2 : List (Term × Nat)) (res : List Term) (ci cs : Nat) :
    (diffLoop d hs i c2 res ci cs).2.1 ≤ max ci (i + hs.length) := by
  fun_induction diffLoop d hs i c2 res ci cs <;> simp_all <;> omega

theorem listErase_closed (C : ListClosed op nil left E L) {all : Bool} {l x v : Term} (hl : L l)
    (h : listErase all op nil left l x = .val v) : L v := by
  unfold listErase at h
  split at h
  · cases h
  · rename_i hs hg
    obtain ⟨hh, he⟩ := children_closed C hl hg
    simp only at h
    split at h
    · cases h; exact hl
    · cases h
      refine prepend_closed C (nthTail_closed C _ _ hl ?_) ?_
      · have := eraseLoop_index x all hs 0 [] 0 0
        rw [he]
        simpa using this
      · have : ∀ c ∈ (eraseLoop x all hs 0 [] 0 0).1, E c := by
          intro c hc
          rcases eraseLoop_mem _ _ _ _ _ _ _ c hc with h | h
          · cases h
          · exact hh c h
        intro c hc
        split at hc
        · exact this c (List.mem_of_mem_take hc)
        · exact this c hc

theorem listSetOf_closed (C : ListClosed op nil left E L) {l v : Term} (hl : L l) (h : listSetOf op nil left l = .val v) : L v := by
  unfold listSetOf at h
  split at h
  · cases h
  · rename_i hs hg
    obtain ⟨hh, he⟩ := children_closed C hl hg
    simp only at h
    split at h
    · cases h; exact hl
    · cases h
      refine prepend_closed C (nthTail_closed C _ _ hl ?_) ?_
      · have := setOfLoop_index hs 0 [] [] 0 0
        rw [he]
        simpa using this
      · intro c hc
        rcases setOfLoop_mem _ _ _ _ _ _ c (List.mem_of_mem_take hc) with h | h
        · cases h
        · exact hh c h

theorem listDiffInter_closed (C : ListClosed op nil left E L) {d : Bool} {l l2 v : Term} (hl : L l)
    (h : listDiffInter d op nil left l l2 = .val v) : L v := by
  unfold listDiffInter at h
  split at h
  · cases h
  · rename_i hs hg
    obtain ⟨hh, he⟩ := children_closed C hl hg
    split at h
    · cases h
    · split at h
      · cases h
        split
        · exact C.nil
        · exact hl
      · simp only at h
        split at h
        · cases h; exact hl
        · cases h
          refine prepend_closed C (nthTail_closed C _ _ hl ?_) ?_
          · rename_i hs2 _ _ _
            have := diffLoop_index d hs 0 (counts hs2) [] 0 0
            rw [he]
            simpa using this
          · intro c hc
            rcases diffLoop_mem _ _ _ _ _ _ _ c (List.mem_of_mem_take hc) with h | h
            · cases h
            · exact hh c h

theorem listRev_closed (C : ListClosed op nil left E L) {l v : Term} (hl : L l) (h : listRev op nil left l = .val v) : L v := by
  unfold listRev at h
  split at h
  · cases h
  · rename_i hs hg
    cases h
    exact prepend_closed C C.nil fun c hc => (children_closed C hl hg).1 c (by simpa using hc)

theorem argAt_get {args : List Term} {i : Nat} {t : Term} (h : argAt args i = .val t) : args[i]? = some t := by
  unfold argAt at h
  split at h
  · rename_i u hu; cases h; exact hu
  · cases h

/-- the operators that give a list from lists -/
def ListToList (k : Kind) : Prop := k ∈ [EVAL_LIST_CONCAT, EVAL_LIST_ERASE, EVAL_LIST_ERASE_ALL, EVAL_LIST_REV, EVAL_LIST_SETOF,
  EVAL_LIST_DIFF, EVAL_LIST_INTER]

/-- the operators on lists give lists; only the concatenation uses the second argument as a list -/
theorem evalListOp_closed (C : ListClosed op nil left E L) {k : Kind} {args : List Term} {v : Term} (hk : ListToList k)
    (h1 : ∀ l, args[1]? = some l → L l) (h2 : k = EVAL_LIST_CONCAT → ∀ l, args[2]? = some l → L l)
    (h : evalListOp k op nil left args = .val v) : L v := by
  simp only [ListToList, List.mem_cons, List.not_mem_nil, or_false] at hk
  rcases hk with rfl | rfl | rfl | rfl | rfl | rfl | rfl
  · simp only [evalListOp, Res.bind_val] at h
    obtain ⟨ret, g1, h⟩ := h
    split at h
    · simp only [Res.bind_val] at h
      obtain ⟨hd, g2, h⟩ := h
      have hL : L ret ∧ L hd := by
        cases left with
        | true => exact ⟨h1 _ (argAt_get g1), h2 rfl _ (argAt_get g2)⟩
        | false => exact ⟨h2 rfl _ (argAt_get g1), h1 _ (argAt_get g2)⟩
      split at h
      · cases h
      · rename_i hs hg
        split at h
        · cases h; exact hL.2
        · cases h; exact prepend_closed C hL.1 (children_closed C hL.2 hg).1
    · cases h
  all_goals
    simp only [evalListOp, Res.bind_val] at h
  · obtain ⟨l, g1, x, _, h⟩ := h
    exact listErase_closed C (h1 _ (argAt_get g1)) h
  · obtain ⟨l, g1, x, _, h⟩ := h
    exact listErase_closed C (h1 _ (argAt_get g1)) h
  · obtain ⟨l, g1, h⟩ := h
    exact listRev_closed C (h1 _ (argAt_get g1)) h
  · obtain ⟨l, g1, h⟩ := h
    exact listSetOf_closed C (h1 _ (argAt_get g1)) h
  · obtain ⟨l, g1, x, _, h⟩ := h
    exact listDiffInter_closed C (h1 _ (argAt_get g1)) h
  · obtain ⟨l, g1, x, _, h⟩ := h
    exact listDiffInter_closed C (h1 _ (argAt_get g1)) h

/-- the element at a position of a list -/
theorem evalListOp_nth (C : ListClosed op nil left E L) {args : List Term} {v : Term} (h1 : ∀ l, args[1]? = some l → L l)
    (h : evalListOp EVAL_LIST_NTH op nil left args = .val v) : E v := by
  simp only [evalListOp, Res.bind_val] at h
  obtain ⟨i, _, h⟩ := h
  split at h
  · split at h
    · simp only [Res.bind_val] at h
      obtain ⟨l, g1, h⟩ := h
      split at h
      · cases h
      · rename_i hs hg
        split at h
        · rename_i u hu
          cases h
          exact (children_closed C (h1 _ (argAt_get g1)) hg).1 _ (List.mem_of_getElem? hu)
        · cases h
    · cases h
  · cases h

/-- the element of a list with one element, else the list -/
theorem evalListOp_singleton (C : ListClosed op nil left E L) {args : List Term} {v : Term} (h1 : ∀ l, args[1]? = some l → L l)
    (h : evalListOp EVAL_LIST_SINGLETON_ELIM op nil left args = .val v) : E v ∨ L v := by
  simp only [evalListOp, Res.bind_val] at h
  obtain ⟨l, g1, h⟩ := h
  split at h
  · cases h
  · rename_i hs hg
    split at h
    · cases h; exact .inl ((children_closed C (h1 _ (argAt_get g1)) hg).1 _ (by simp))
    · cases h; exact .inr (h1 _ (argAt_get g1))

/-- an element before a list -/
theorem evalListOp_cons (C : ListClosed op nil left E L) {args : List Term} {v : Term} (h1 : ∀ x, args[1]? = some x → E x)
    (h2 : ∀ l, args[2]? = some l → L l) (h : evalListOp EVAL_CONS op nil left args = .val v) : L v := by
  simp only [evalListOp, Res.bind_val] at h
  obtain ⟨ret, g1, h⟩ := h
  split at h
  · simp only [Res.bind_val] at h
    obtain ⟨a, g2, h⟩ := h
    cases h
    refine prepend_closed C (h2 _ (argAt_get g1)) ?_
    intro c hc
    simp only [List.mem_singleton] at hc
    exact hc ▸ h1 _ (argAt_get g2)
  · cases h

end Ethos.Props
