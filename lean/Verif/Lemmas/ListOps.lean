import Verif.Model.ListOps
import Verif.Spec.Lists
import Verif.Lemmas.Term
/-
Helper lemmas for C14-C18.  `mkl isLeft op nil hargs` is the f-list whose elements, from the outside in, are
`hargs` (the order in which the code collects them).
-/
namespace Ethos
open Kind Spec Term

def mkl (isLeft : Bool) (op nil : Term) (hs : List Term) : Term :=
  hs.foldr (fun x acc => if isLeft then app2 op acc x else app2 op x acc) nil

theorem rlist_eq_mkl (op nil : Term) (xs : List Term) : rlist op nil xs = mkl false op nil xs := by
  induction xs with
  | nil => rfl
  | cons x xs ih => simp only [rlist, ih]; rfl

theorem llistFrom_eq_foldl (op : Term) (xs : List Term) : ∀ acc, llistFrom op acc xs = xs.foldl (app2 op) acc := by
  induction xs with
  | nil => intro acc; rfl
  | cons x xs ih => intro acc; simp only [llistFrom, ih]; rfl

theorem llist_eq_mkl (op nil : Term) (xs : List Term) : llist op nil xs = mkl true op nil xs.reverse := by
  unfold llist
  rw [llistFrom_eq_foldl, mkl, List.foldr_reverse]
  rfl

theorem naryLoop_app (op : Term) (isLeft : Bool) (x y : Term) (r1 r2 : List Term) :
    naryLoop op isLeft (.node APPLY (.node APPLY (op :: x :: r1) :: y :: r2)) =
      if isLeft then (y :: (naryLoop op isLeft x).1, (naryLoop op isLeft x).2)
      else (x :: (naryLoop op isLeft y).1, (naryLoop op isLeft y).2) := by
  rw [naryLoop]; simp

theorem naryLoop_notApp (op : Term) (isLeft : Bool) (e : Term) (h : NotApp op e) : naryLoop op isLeft e = ([], e) := by
  unfold naryLoop
  split
  · split
    · rename_i o x r1 y r2 ho
      subst ho
      exact absurd rfl (h x y r1 r2)
    · rfl
  · rfl

theorem naryLoop_mkl (op nil : Term) (isLeft : Bool) (hn : NotApp op nil) (hs : List Term) :
    naryLoop op isLeft (mkl isLeft op nil hs) = (hs, nil) := by
  induction hs with
  | nil => exact naryLoop_notApp _ _ _ hn
  | cons h hs ih =>
    show naryLoop op isLeft (if isLeft then app2 op (mkl isLeft op nil hs) h else app2 op h (mkl isLeft op nil hs)) = _
    cases isLeft
    · simp only [Bool.false_eq_true, if_false, app2]
      rw [naryLoop_app]
      simp [ih]
    · simp only [if_true, app2]
      rw [naryLoop_app]
      simp [ih]

theorem getNAry_mkl (op nil : Term) (isLeft : Bool) (hn : NotApp op nil) (hs : List Term) :
    getNAryChildren op nil isLeft (mkl isLeft op nil hs) = some hs := by
  unfold getNAryChildren
  rw [naryLoop_mkl _ _ _ hn]
  simp

theorem isNAry_mkl (op nil : Term) (isLeft : Bool) (hn : NotApp op nil) (hs : List Term) :
    isNAryList op nil isLeft (mkl isLeft op nil hs) = true := by
  unfold isNAryList
  rw [naryLoop_mkl _ _ _ hn]
  simp

/-- the loop decomposes a curried term -/
theorem naryLoop_spec (op : Term) (isLeft : Bool) (e : Term) (hc : Curried op e) :
    e = mkl isLeft op (naryLoop op isLeft e).2 (naryLoop op isLeft e).1 ∧ NotApp op (naryLoop op isLeft e).2 := by
  fun_induction naryLoop op isLeft e with
  | case1 x r1 y r2 _ cs e' heq ih =>
    rename_i hL
    obtain ⟨rfl, rfl⟩ := hc x y r1 r2 (.refl _)
    have hcx : Curried op x := fun a b r1' r2' hs => hc a b r1' r2'
      (.child _ _ _ (.node APPLY [op, x]) (by simp) (.child _ _ _ x (by simp) hs))
    obtain ⟨h1, h2⟩ := ih hcx
    rw [heq] at h1 h2
    refine ⟨?_, h2⟩
    conv => lhs; rw [h1]
    simp [mkl, app2, hL]
  | case2 x r1 y r2 _ cs e' heq ih =>
    rename_i hL
    obtain ⟨rfl, rfl⟩ := hc x y r1 r2 (.refl _)
    have hcy : Curried op y := fun a b r1' r2' hs => hc a b r1' r2'
      (.child _ _ _ y (by simp) hs)
    obtain ⟨h1, h2⟩ := ih hcy
    rw [heq] at h1 h2
    refine ⟨?_, h2⟩
    conv => lhs; rw [h1]
    simp [mkl, app2, hL]
  | case3 o x r1 y r2 ho =>
    refine ⟨rfl, ?_⟩
    intro x' y' r1' r2' he
    simp at he
    exact ho he.1.1
  | case4 e he =>
    refine ⟨rfl, ?_⟩
    intro x y r1 r2 h
    exact he op x r1 y r2 h

theorem getNAry_some {op nil : Term} {isLeft : Bool} {e : Term} {hs : List Term} (hc : Curried op e)
    (h : getNAryChildren op nil isLeft e = some hs) : e = mkl isLeft op nil hs ∧ NotApp op nil := by
  unfold getNAryChildren at h
  obtain ⟨h1, h2⟩ := naryLoop_spec op isLeft e hc
  split at h
  rename_i cs e' heq
  rw [heq] at h1 h2
  split at h
  · cases h
  · rename_i hne
    simp at hne h
    subst hne h
    exact ⟨h1, h2⟩

theorem mkl_cons (isLeft : Bool) (op nil x : Term) (hs : List Term) :
    mkl isLeft op nil (x :: hs) = if isLeft then app2 op (mkl isLeft op nil hs) x else app2 op x (mkl isLeft op nil hs) := rfl

theorem nthTail_mkl (isLeft : Bool) (op nil : Term) : ∀ (n : Nat) (hs : List Term), n ≤ hs.length →
    nthTail isLeft n (mkl isLeft op nil hs) = mkl isLeft op nil (hs.drop n)
  | 0, hs, _ => by cases hs <;> rfl
  | n+1, [], h => by simp at h
  | n+1, x :: hs, h => by
    rw [mkl_cons]
    have ih := nthTail_mkl isLeft op nil n hs (by simpa using h)
    cases isLeft
    · simp only [Bool.false_eq_true, if_false, app2, nthTail, List.drop_succ_cons] at ih ⊢
      exact ih
    · simp only [if_true, app2, nthTail, List.drop_succ_cons] at ih ⊢
      exact ih

theorem mkl_append (isLeft : Bool) (op nil : Term) (rs hs : List Term) :
    mkl isLeft op nil (rs ++ hs) = mkl isLeft op (mkl isLeft op nil hs) rs := by
  simp [mkl]

theorem prepend_mkl (isLeft : Bool) (op nil : Term) (hs rs : List Term) :
    prependNAry op isLeft (mkl isLeft op nil hs) rs =
      mkl isLeft op nil ((if isLeft then rs.reverse else rs) ++ hs) := by
  unfold prependNAry
  cases isLeft
  · simp only [Bool.false_eq_true, if_false]
    rw [mkl_append]
    simp [mkl]
  · simp only [if_true]
    rw [mkl_append]
    conv => rhs; rw [mkl]
    rw [List.foldr_reverse]
    simp

/-- bookkeeping invariant of the tail-sharing loops: `P` processed so far -/
def Share (P result : List Term) (ci cs : Nat) : Prop :=
  ci ≤ P.length ∧ cs ≤ result.length ∧ result.drop cs = P.drop ci ∧ (ci = 0 → cs = 0)

theorem Share.init : Share [] [] 0 0 := by simp [Share]

theorem Share.keep {P result : List Term} {ci cs : Nat} (h : Share P result ci cs) (x : Term) :
    Share (P ++ [x]) (result ++ [x]) ci cs := by
  obtain ⟨h1, h2, h3, h4⟩ := h
  refine ⟨by simp; omega, by simp; omega, ?_, h4⟩
  rw [List.drop_append_of_le_length h2, List.drop_append_of_le_length h1, h3]

theorem Share.drop {P result : List Term} (x : Term) : Share (P ++ [x]) result (P.length + 1) result.length := by
  refine ⟨by simp, by simp, ?_, by simp⟩
  rw [List.drop_of_length_le (by simp), List.drop_of_length_le (by simp)]

theorem Share.result {P result : List Term} {ci cs : Nat} (h : Share P result ci cs) :
    result.take cs ++ P.drop ci = result := by
  rw [← h.2.2.1]; exact List.take_append_drop cs result

theorem Share.unchanged {P result : List Term} {cs : Nat} (h : Share P result 0 cs) : result = P := by
  have h1 := h.2.2.1
  rw [h.2.2.2 rfl] at h1
  simpa using h1

theorem eraseLoop_all (x : Term) : ∀ (hs : List Term) (P result : List Term) (ci cs : Nat), Share P result ci cs →
    ∃ r ci' cs', eraseLoop x true hs P.length result ci cs = (r, ci', cs') ∧ Share (P ++ hs) r ci' cs' ∧
      r = result ++ hs.filter (fun y => decide (y ≠ x))
  | [], P, result, ci, cs, h => ⟨result, ci, cs, rfl, by simpa using h, by simp⟩
  | y :: hs, P, result, ci, cs, h => by
    rw [eraseLoop]
    split
    · rename_i hy
      obtain ⟨r, ci', cs', h1, h2, h3⟩ := eraseLoop_all x hs (P ++ [y]) result (P.length + 1) result.length (Share.drop y)
      refine ⟨r, ci', cs', by simpa using h1, by simpa using h2, ?_⟩
      simp [h3, hy]
    · rename_i hy
      obtain ⟨r, ci', cs', h1, h2, h3⟩ := eraseLoop_all x hs (P ++ [y]) (result ++ [y]) ci cs (h.keep y)
      refine ⟨r, ci', cs', by simpa using h1, by simpa using h2, ?_⟩
      rw [h3, List.filter_cons_of_pos (by simpa using hy)]
      simp

theorem eraseLoop_first (x : Term) : ∀ (hs P : List Term),
    (x ∉ hs → eraseLoop x false hs P.length P 0 0 = (P ++ hs, 0, 0)) ∧
    (x ∈ hs → ∃ a b, hs = a ++ x :: b ∧ x ∉ a ∧
      eraseLoop x false hs P.length P 0 0 = (P ++ a, P.length + a.length + 1, 0))
  | [], P => by simp [eraseLoop]
  | y :: hs, P => by
    obtain ⟨h1, h2⟩ := eraseLoop_first x hs (P ++ [y])
    constructor
    · intro hx
      simp at hx
      rw [eraseLoop, if_neg (fun e => hx.1 e.symm)]
      have := h1 hx.2
      simpa using this
    · intro hx
      by_cases hy : y = x
      · refine ⟨[], hs, by simp [hy], by simp, ?_⟩
        rw [eraseLoop, if_pos hy]
        simp
      · have hx' : x ∈ hs := by
          rcases List.mem_cons.mp hx with h | h
          · exact absurd h.symm hy
          · exact h
        obtain ⟨a, b, e1, e2, e3⟩ := h2 hx'
        refine ⟨y :: a, b, by simp [e1], by simp [e2]; exact fun e => hy e.symm, ?_⟩
        rw [eraseLoop, if_neg hy]
        simp only [List.length_append, List.length_cons, List.length_nil] at e3
        simp only [List.length_cons]
        rw [show P.length + (a.length + 1) + 1 = P.length + (0 + 1) + a.length + 1 by omega]
        simpa using e3

/-- result of the erase loop in the code's order -/
theorem setOf_filter (p : Term → Bool) : ∀ (l : List Term), (setOf l).filter p = setOf (l.filter p)
  | [] => by simp [setOf]
  | x :: l => by
    rw [List.filter_cons]
    simp only [setOf, List.filter_cons]
    split
    · rw [setOf, ← setOf_filter p l]
      simp only [List.filter_filter, List.cons.injEq, true_and]
      congr 1
      funext y
      rw [Bool.and_comm]
    · rename_i hp
      rw [← setOf_filter p l, List.filter_filter]
      congr 1
      funext y
      by_cases hy : y = x
      · subst hy; simp [hp]
      · simp [hy]

theorem setOfLoop_spec : ∀ (hs : List Term) (P seen result : List Term) (ci cs : Nat), Share P result ci cs →
    ∃ r ci' cs', setOfLoop hs P.length seen result ci cs = (r, ci', cs') ∧ Share (P ++ hs) r ci' cs' ∧
      r = result ++ setOf (hs.filter (fun y => decide (y ∉ seen)))
  | [], P, seen, result, ci, cs, h => ⟨result, ci, cs, rfl, by simpa using h, by simp [setOf]⟩
  | y :: hs, P, seen, result, ci, cs, h => by
    rw [setOfLoop]
    split
    · rename_i hy
      obtain ⟨r, ci', cs', h1, h2, h3⟩ := setOfLoop_spec hs (P ++ [y]) seen result (P.length + 1) result.length (Share.drop y)
      refine ⟨r, ci', cs', by simpa using h1, by simpa using h2, ?_⟩
      rw [h3, List.filter_cons_of_neg (by simpa using hy)]
    · rename_i hy
      obtain ⟨r, ci', cs', h1, h2, h3⟩ := setOfLoop_spec hs (P ++ [y]) (y :: seen) (result ++ [y]) ci cs (h.keep y)
      refine ⟨r, ci', cs', by simpa using h1, by simpa using h2, ?_⟩
      rw [h3, List.filter_cons_of_pos (by simpa using hy), setOf, setOf_filter, List.filter_filter]
      simp only [List.append_assoc, List.cons_append, List.nil_append]
      congr 4
      funext z
      by_cases h1 : z = y
      · simp [h1]
      · simp [h1]

end Ethos
