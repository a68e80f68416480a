import Verif.Lemmas.ListRuns
import Verif.Props.ListsLeft
/- The two sides of the comparison between the builtin list operators and the programs of eo-definitions.eo. -/
namespace Ethos.Props
open Ethos Kind Spec
section
variable {env : Env} {S : ListSyms} {f ct nil : Term} {ctx : Ctx}

/-- an operator gives a value exactly when it has that result -/
theorem builtin_iff {k : Kind} (qs : List (Term × Term)) (hk : isLiteralOp k = true) (hite : k ≠ EVAL_IF_THEN_ELSE) (hne : qs ≠ [])
    (hev : ∀ q ∈ qs, EvaluatesTo env ctx q.1 q.2) {v : Term} (hv : IsValue v) :
    EvaluatesTo env ctx (.node k (qs.map Prod.fst)) v ↔ OpResult env k (qs.map Prod.snd) (some v) := by
  rw [C31_operator env ctx k qs hk hite hne hev]
  constructor
  · rintro (h | ⟨_, rfl⟩)
    · exact h
    · exact absurd hv (not_value_node _ _ hk (by simpa using hne))
  · exact .inl

theorem opResult_iff {k : Kind} {args : List Term} {r v : Term} (h : OpResult env k args (some r)) : OpResult env k args (some v) ↔ v = r :=
  ⟨fun h' => by have := OpResult.det _ _ _ _ h' h; simpa using this, fun e => e ▸ h⟩

theorem opResult_none {k : Kind} {args : List Term} {v : Term} (h : OpResult env k args none) : ¬ OpResult env k args (some v) :=
  fun h' => by have := OpResult.det _ _ _ _ h' h; simp at this

theorem ev_iff {t v r : Term} (h : EvaluatesTo env ctx t r) : EvaluatesTo env ctx t v ↔ v = r :=
  ⟨fun h' => C31_deterministic env ctx t _ _ h' h, fun e => e ▸ h⟩

theorem _root_.Ethos.Spec.ListArg.values (L : NilListOp env f ct nil) {a : Term} (Ha : ListArg env S f ct nil a) {xs : List Term}
    (h : a = rlist f nil xs) : ∀ x ∈ xs, IsValue x := (value_rlist L.value L.nilValue xs).mp (h ▸ Ha.value)

variable (D : ListDefs env S) (L : NilListOp env f ct nil)
include D L

/-- the check that an argument is a list -/
theorem guarded_list {F A a T v : Term} (hF : EvaluatesTo env ctx F f) (hA : EvaluatesTo env ctx A a) (Ha : ListArg env S f ct nil a) (hv : IsValue v) :
    EvaluatesTo env ctx (guarded (isListDef S F A) T) v ↔ (∃ xs, a = rlist f nil xs) ∧ EvaluatesTo env ctx T v := by
  obtain ⟨b, h1, h2⟩ := ev_isList D L.value L.nilValue L.nilNotApp a Ha.value Ha.curried
  obtain ⟨_, _, _, _, _, _, hp⟩ := D.isList
  have h3 : EvaluatesTo env ctx (isListDef S F A) (boolVal b) :=
    (ev_call hp [(F, f), (nilDef S F A, nil), (A, a)] (by
      simp only [List.mem_cons, List.not_mem_nil, or_false, forall_eq_or_imp, forall_eq]
      exact ⟨hF, ev_nilDef D hF hA L.value Ha.value Ha.nilDef, hA⟩) (by
      simp only [List.mem_cons, List.not_mem_nil, or_false, forall_eq_or_imp, forall_eq]; exact ⟨L.value, L.nilValue, Ha.value⟩) _).mpr h1
  rw [ev_guarded h3 hv, h2]

omit D in
/-- a builtin list operator with two arguments -/
theorem unary_iff {k : Kind} (hk : k = EVAL_LIST_LENGTH ∨ k = EVAL_LIST_REV ∨ k = EVAL_LIST_SETOF ∨ k = EVAL_LIST_SINGLETON_ELIM)
    {F A a v : Term} (hF : EvaluatesTo env ctx F f) (hA : EvaluatesTo env ctx A a) (Ha : ListArg env S f ct nil a) (hv : IsValue v)
    (r : List Term → Term) (hr : ∀ xs, a = rlist f nil xs → evalListOp k f nil false [f, rlist f nil xs] = .val (r xs)) :
    EvaluatesTo env ctx (.node k [F, A]) v ↔ ∃ xs, a = rlist f nil xs ∧ v = r xs := by
  have hl : isLiteralOp k = true ∧ k ≠ EVAL_IF_THEN_ELSE ∧ isListLiteralOp k = true ∧ k ≠ EVAL_NIL := by
    rcases hk with rfl | rfl | rfl | rfl <;> exact ⟨rfl, by simp, rfl, by simp⟩
  have hg : ∀ x ∈ [f, a], Closed x := by simpa using ⟨value_closed L.value, value_closed Ha.value⟩
  obtain ⟨at', hd, ha⟩ := L.declared
  refine (builtin_iff [(F, f), (A, a)] hl.1 hl.2.1 (by simp) (by simpa using ⟨hF, hA⟩) hv).trans ?_
  by_cases h : ∃ xs, a = rlist f nil xs
  · obtain ⟨xs, rfl⟩ := h
    rw [List.map_cons, List.map_cons, List.map_nil]
    rw [opResult_iff (list_value hl.2.2.1 hl.2.2.2 (.plain L.plain) L.notLit hd ha Ha.nilFor hg (hr xs rfl))]
    constructor
    · intro e; exact ⟨xs, rfl, e⟩
    · rintro ⟨ys, h, e⟩
      rw [C14_injective f nil L.nilNotApp] at h
      exact h ▸ e
  · refine iff_of_false (opResult_none ?_) fun ⟨xs, e, _⟩ => h ⟨xs, e⟩
    exact C18_non_list_unary hk (.plain L.plain) L.notLit hd ha Ha.nilFor L.nilNotApp hg (fun xs e => h ⟨xs, by simpa using e⟩) Ha.curried

omit D in
/-- a builtin list operator whose first argument is a list -/
theorem binary_iff {k : Kind} (hk : k = EVAL_LIST_NTH ∨ k = EVAL_LIST_FIND ∨ k = EVAL_LIST_ERASE ∨ k = EVAL_LIST_ERASE_ALL)
    {F A E a e v : Term} (hF : EvaluatesTo env ctx F f) (hA : EvaluatesTo env ctx A a) (hE : EvaluatesTo env ctx E e) (Ha : ListArg env S f ct nil a)
    (he : IsValue e) (hv : IsValue v) (r : List Term → Option Term)
    (hr : ∀ xs, a = rlist f nil xs → Out.ofRes (evalListOp k f nil false [f, rlist f nil xs, e]) = .ok (r xs)) :
    EvaluatesTo env ctx (.node k [F, A, E]) v ↔ ∃ xs, a = rlist f nil xs ∧ r xs = some v := by
  have hl : isLiteralOp k = true ∧ k ≠ EVAL_IF_THEN_ELSE ∧ isListLiteralOp k = true ∧ k ≠ EVAL_NIL ∧ 1 ∈ listPositions k := by
    rcases hk with rfl | rfl | rfl | rfl <;> exact ⟨rfl, by simp, rfl, by simp, by simp [listPositions]⟩
  have hg : ∀ x ∈ [f, a, e], Closed x := by
    simp only [List.mem_cons, List.not_mem_nil, or_false, forall_eq_or_imp, forall_eq]
    exact ⟨value_closed L.value, value_closed Ha.value, value_closed he⟩
  obtain ⟨at', hd, ha⟩ := L.declared
  refine (builtin_iff [(F, f), (A, a), (E, e)] hl.1 hl.2.1 (by simp) (by
    simp only [List.mem_cons, List.not_mem_nil, or_false, forall_eq_or_imp, forall_eq]; exact ⟨hF, hA, hE⟩) hv).trans ?_
  by_cases h : ∃ xs, a = rlist f nil xs
  · obtain ⟨xs, rfl⟩ := h
    simp only [List.map_cons, List.map_nil]
    rw [C18_dispatch [e] hl.2.2.1 hl.2.2.2.1 (.plain L.plain) L.notLit hd ha Ha.nilFor hg, hr xs rfl]
    constructor
    · intro e; exact ⟨xs, rfl, by simpa using e⟩
    · rintro ⟨ys, h, e⟩
      rw [C14_injective f nil L.nilNotApp] at h
      rw [h, e]
  · refine iff_of_false (opResult_none ?_) fun ⟨xs, e, _⟩ => h ⟨xs, e⟩
    exact C18_non_list_op hl.2.2.1 hl.2.2.2.1 (.plain L.plain) L.notLit hd ha Ha.nilFor L.nilNotApp hg 1 hl.2.2.2.2
      (fun xs e => h ⟨xs, by simpa using e⟩) Ha.curried

omit D in
/-- a builtin list operator on two lists -/
theorem lists_iff {k : Kind} (hk : k = EVAL_LIST_CONCAT ∨ k = EVAL_LIST_DIFF ∨ k = EVAL_LIST_INTER ∨ k = EVAL_LIST_MINCLUDE ∨ k = EVAL_LIST_MEQ)
    {F A B a b v : Term} (hF : EvaluatesTo env ctx F f) (hA : EvaluatesTo env ctx A a) (hB : EvaluatesTo env ctx B b)
    (Ha : ListArg env S f ct nil a) (Hb : ListArg env S f ct nil b) (hv : IsValue v) (r : List Term → List Term → Term)
    (hr : ∀ xs ys, a = rlist f nil xs → b = rlist f nil ys → evalListOp k f nil false [f, rlist f nil xs, rlist f nil ys] = .val (r xs ys)) :
    EvaluatesTo env ctx (.node k [F, A, B]) v ↔ ∃ xs ys, a = rlist f nil xs ∧ b = rlist f nil ys ∧ v = r xs ys := by
  have hl : isLiteralOp k = true ∧ k ≠ EVAL_IF_THEN_ELSE ∧ isListLiteralOp k = true ∧ k ≠ EVAL_NIL ∧ 1 ∈ listPositions k ∧ 2 ∈ listPositions k := by
    rcases hk with rfl | rfl | rfl | rfl | rfl <;> exact ⟨rfl, by simp, rfl, by simp, by simp [listPositions], by simp [listPositions]⟩
  have hg : ∀ x ∈ [f, a, b], Closed x := by
    simp only [List.mem_cons, List.not_mem_nil, or_false, forall_eq_or_imp, forall_eq]
    exact ⟨value_closed L.value, value_closed Ha.value, value_closed Hb.value⟩
  obtain ⟨at', hd, ha⟩ := L.declared
  refine (builtin_iff [(F, f), (A, a), (B, b)] hl.1 hl.2.1 (by simp) (by
    simp only [List.mem_cons, List.not_mem_nil, or_false, forall_eq_or_imp, forall_eq]; exact ⟨hF, hA, hB⟩) hv).trans ?_
  simp only [List.map_cons, List.map_nil]
  by_cases h : ∃ xs, a = rlist f nil xs
  · by_cases h' : ∃ ys, b = rlist f nil ys
    · obtain ⟨xs, rfl⟩ := h
      obtain ⟨ys, rfl⟩ := h'
      rw [opResult_iff (list_value hl.2.2.1 hl.2.2.2.1 (.plain L.plain) L.notLit hd ha Ha.nilFor hg (hr xs ys rfl rfl))]
      constructor
      · intro e; exact ⟨xs, ys, rfl, rfl, e⟩
      · rintro ⟨xs', ys', h, h', e⟩
        rw [C14_injective f nil L.nilNotApp] at h h'
        exact h ▸ h' ▸ e
    · refine iff_of_false (opResult_none ?_) fun ⟨xs, ys, _, e, _⟩ => h' ⟨ys, e⟩
      exact C18_non_list_op hl.2.2.1 hl.2.2.2.1 (.plain L.plain) L.notLit hd ha Ha.nilFor L.nilNotApp hg 2 hl.2.2.2.2.2
        (fun xs e => h' ⟨xs, by simpa using e⟩) Hb.curried
  · refine iff_of_false (opResult_none ?_) fun ⟨xs, ys, e, _⟩ => h ⟨xs, e⟩
    exact C18_non_list_op hl.2.2.1 hl.2.2.2.1 (.plain L.plain) L.notLit hd ha Ha.nilFor L.nilNotApp hg 1 hl.2.2.2.2.1
      (fun xs e => h ⟨xs, by simpa using e⟩) Ha.curried

end
end Ethos.Props
