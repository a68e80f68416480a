import Verif.Lemmas.ListEquiv
/-
C76: the builtin list operators agree with their definitions as Eunoia programs (tests/eo-definitions.eo).

In each theorem `F`, `A`, `B`, `E` are the arguments as written, which may contain parameters bound by `ctx`, and `f`, `a`, `b`, `e` are
their values.  `v` ranges over all values, so the two sides give the same value, or both give none.
-/
namespace Ethos.Props
open Ethos Kind Spec
section
variable {env : Env} {S : ListSyms} {f ct nil : Term} {ctx : Ctx} (D : ListDefs env S)
include D

/-- **C76**.  `($eo_eq A B)` and `(eo::eq A B)`. -/
theorem C76_eq {A B a b v : Term} (hA : EvaluatesTo env ctx A a) (hB : EvaluatesTo env ctx B b) (ha : IsValue a) (hb : IsValue b) :
    EvaluatesTo env ctx (eqDef S A B) v ↔ EvaluatesTo env ctx (.node EVAL_EQ [A, B]) v := by
  obtain ⟨t, s, _, hp⟩ := D.eq
  rw [ev_iff (ev_eqDef D hA hB ha hb)]
  refine Iff.trans ?_ (C31_operator env ctx EVAL_EQ [(A, a), (B, b)] rfl (by simp) (by simp) (by simpa using ⟨hA, hB⟩) v).symm
  have h := C11_eq_values env a b ha hb
  constructor
  · rintro rfl; exact .inl h
  · rintro (h' | ⟨h', _⟩)
    · exact (opResult_iff h).mp h'
    · exact absurd h (opResult_none h')

variable (L : NilListOp env f ct nil)
include L

/-- **C76**.  `($eo_cons F E A)` and `(eo::cons F E A)`. -/
theorem C76_cons {F E A e a v : Term} (hF : EvaluatesTo env ctx F f) (hE : EvaluatesTo env ctx E e) (hA : EvaluatesTo env ctx A a)
    (he : IsValue e) (hen : NilFor env f e ct nil) (Ha : ListArg env S f ct nil a) (hv : IsValue v) :
    EvaluatesTo env ctx (consDef S F E A) v ↔ EvaluatesTo env ctx (.node EVAL_CONS [F, E, A]) v := by
  have hg : ∀ x ∈ [f, e, a], Closed x := by
    simp only [List.mem_cons, List.not_mem_nil, or_false, forall_eq_or_imp, forall_eq]
    exact ⟨value_closed L.value, value_closed he, value_closed Ha.value⟩
  obtain ⟨at', hd, ha⟩ := L.declared
  have h1 := builtin_iff (k := EVAL_CONS) [(F, f), (E, e), (A, a)] rfl (by simp) (by simp) (by
    simp only [List.mem_cons, List.not_mem_nil, or_false, forall_eq_or_imp, forall_eq]; exact ⟨hF, hE, hA⟩) hv
  refine (guarded_list D L hF hA Ha hv).trans (Iff.trans ?_ h1.symm)
  rw [ev_iff (ev_bin L.value hF hE hA)]
  simp only [List.map_cons, List.map_nil]
  by_cases h : ∃ xs, a = rlist f nil xs
  · obtain ⟨xs, rfl⟩ := h
    rw [opResult_iff (list_value rfl (by simp) (.plain L.plain) L.notLit hd ha hen hg (C15_cons L.nilNotApp f e xs))]
    exact and_iff_right ⟨xs, rfl⟩
  · refine iff_of_false (fun e => h e.1) (opResult_none ?_)
    exact C18_non_list_op rfl (by simp) (.plain L.plain) L.notLit hd ha hen L.nilNotApp hg 2 (by simp [listPositions])
      (fun xs e => h ⟨xs, by simpa using e⟩) Ha.curried

/-- **C76**.  `($eo_list_len F A)` and `(eo::list_len F A)`. -/
theorem C76_len {F A a v : Term} (hF : EvaluatesTo env ctx F f) (hA : EvaluatesTo env ctx A a) (Ha : ListArg env S f ct nil a)
    (hl : Elements f nil a fun xs => xs.length < 2^32) (hv : IsValue v) :
    EvaluatesTo env ctx (lenDef S F A) v ↔ EvaluatesTo env ctx (.node EVAL_LIST_LENGTH [F, A]) v := by
  rw [unary_iff L (.inl rfl) hF hA Ha hv (fun xs => int xs.length) fun xs e => C15_len L.nilNotApp f xs (hl xs e)]
  refine (guarded_list D L hF hA Ha hv).trans ⟨?_, ?_⟩
  all_goals
    obtain ⟨_, _, _, _, _, hp⟩ := D.len
    have hc := ev_call hp [(F, f), (A, a)] (by simpa using ⟨hF, hA⟩) (by simpa using ⟨L.value, Ha.value⟩) v
  · rintro ⟨⟨xs, rfl⟩, h⟩
    exact ⟨xs, rfl, (ev_iff (ev_len D L.value L.nilValue L.nilNotApp xs (Ha.values L rfl))).mp (hc.mp h)⟩
  · rintro ⟨xs, rfl, rfl⟩
    exact ⟨⟨xs, rfl⟩, hc.mpr (ev_len D L.value L.nilValue L.nilNotApp xs (Ha.values L rfl))⟩

/-- **C76**.  `($eo_list_rev F A)` and `(eo::list_rev F A)`. -/
theorem C76_rev {F A a v : Term} (hF : EvaluatesTo env ctx F f) (hA : EvaluatesTo env ctx A a) (Ha : ListArg env S f ct nil a) (hv : IsValue v) :
    EvaluatesTo env ctx (revDef S F A) v ↔ EvaluatesTo env ctx (.node EVAL_LIST_REV [F, A]) v := by
  rw [unary_iff L (.inr (.inl rfl)) hF hA Ha hv (fun xs => rlist f nil xs.reverse) fun xs e => C15_rev L.nilNotApp f xs]
  refine (guarded_list D L hF hA Ha hv).trans ⟨?_, ?_⟩
  all_goals
    obtain ⟨_, _, _, _, _, _, hp⟩ := D.rev
    have hc := ev_call hp [(F, f), (A, a), (nilDef S F A, nil)] (by
      simp only [List.mem_cons, List.not_mem_nil, or_false, forall_eq_or_imp, forall_eq]
      exact ⟨hF, hA, ev_nilDef D hF hA L.value Ha.value Ha.nilDef⟩) (by
      simp only [List.mem_cons, List.not_mem_nil, or_false, forall_eq_or_imp, forall_eq]; exact ⟨L.value, Ha.value, L.nilValue⟩) v
  · rintro ⟨⟨xs, rfl⟩, h⟩
    exact ⟨xs, rfl, (ev_iff (ev_rev D L.value L.nilValue L.nilNotApp xs nil (Ha.values L rfl) L.nilValue)).mp (hc.mp h)⟩
  · rintro ⟨xs, rfl, rfl⟩
    exact ⟨⟨xs, rfl⟩, hc.mpr (ev_rev D L.value L.nilValue L.nilNotApp xs nil (Ha.values L rfl) L.nilValue)⟩

/-- **C76**.  `($eo_list_setof F A)` and `(eo::list_setof F A)`. -/
theorem C76_setof {F A a v : Term} (hF : EvaluatesTo env ctx F f) (hA : EvaluatesTo env ctx A a) (Ha : ListArg env S f ct nil a)
    (hN : Elements f nil a (NilOn env S f nil)) (hv : IsValue v) :
    EvaluatesTo env ctx (setofDef S F A) v ↔ EvaluatesTo env ctx (.node EVAL_LIST_SETOF [F, A]) v := by
  rw [unary_iff L (.inr (.inr (.inl rfl))) hF hA Ha hv (fun xs => rlist f nil (setOf xs)) fun xs e => C15_setof L.nilNotApp f xs]
  refine (guarded_list D L hF hA Ha hv).trans ⟨?_, ?_⟩
  all_goals
    obtain ⟨_, _, _, _, _, hp⟩ := D.setof
    have hc := ev_call hp [(F, f), (A, a)] (by simpa using ⟨hF, hA⟩) (by simpa using ⟨L.value, Ha.value⟩) v
  · rintro ⟨⟨xs, rfl⟩, h⟩
    exact ⟨xs, rfl, (ev_iff (ev_setof D L.value L.nilValue L.nilNotApp _ xs (Nat.le_refl _) (Ha.values L rfl) (hN xs rfl))).mp (hc.mp h)⟩
  · rintro ⟨xs, rfl, rfl⟩
    exact ⟨⟨xs, rfl⟩, hc.mpr (ev_setof D L.value L.nilValue L.nilNotApp _ xs (Nat.le_refl _) (Ha.values L rfl) (hN xs rfl))⟩

/-- **C76**.  `($eo_list_singleton_elim F A)` and `(eo::list_singleton_elim F A)`. -/
theorem C76_singleton_elim {F A a v : Term} (hF : EvaluatesTo env ctx F f) (hA : EvaluatesTo env ctx A a) (Ha : ListArg env S f ct nil a)
    (hv : IsValue v) :
    EvaluatesTo env ctx (singleDef S F A) v ↔ EvaluatesTo env ctx (.node EVAL_LIST_SINGLETON_ELIM [F, A]) v := by
  rw [unary_iff L (.inr (.inr (.inr rfl))) hF hA Ha hv (elimSingle f nil) fun xs e => by
    rw [C18_singleton_elim L.nilNotApp f xs]
    match xs with
    | [] => rfl
    | [x] => rfl
    | x :: y :: xs => rfl]
  refine (guarded_list D L hF hA Ha hv).trans ⟨?_, ?_⟩
  all_goals
    obtain ⟨_, _, _, _, _, hp⟩ := D.single
    have hc := ev_call hp [(F, f), (nilDef S F A, nil), (A, a)] (by
      simp only [List.mem_cons, List.not_mem_nil, or_false, forall_eq_or_imp, forall_eq]
      exact ⟨hF, ev_nilDef D hF hA L.value Ha.value Ha.nilDef, hA⟩) (by
      simp only [List.mem_cons, List.not_mem_nil, or_false, forall_eq_or_imp, forall_eq]; exact ⟨L.value, L.nilValue, Ha.value⟩) v
  · rintro ⟨⟨xs, rfl⟩, h⟩
    exact ⟨xs, rfl, (ev_iff (ev_single D L.value L.nilValue L.nilNotApp xs (Ha.values L rfl))).mp (hc.mp h)⟩
  · rintro ⟨xs, rfl, rfl⟩
    exact ⟨⟨xs, rfl⟩, hc.mpr (ev_single D L.value L.nilValue L.nilNotApp xs (Ha.values L rfl))⟩

/-- **C76**.  `($eo_list_erase F A E)` and `(eo::list_erase F A E)`. -/
theorem C76_erase {F A E a e v : Term} (hF : EvaluatesTo env ctx F f) (hA : EvaluatesTo env ctx A a) (hE : EvaluatesTo env ctx E e)
    (Ha : ListArg env S f ct nil a) (he : IsValue e) (hv : IsValue v) :
    EvaluatesTo env ctx (eraseDef S F A E) v ↔ EvaluatesTo env ctx (.node EVAL_LIST_ERASE [F, A, E]) v := by
  rw [binary_iff L (.inr (.inr (.inl rfl))) hF hA hE Ha he hv (fun xs => some (rlist f nil (eraseFirst e xs))) fun xs _ => by
    rw [C15_erase L.nilNotApp f e xs]; rfl]
  refine (guarded_list D L hF hA Ha hv).trans ⟨?_, ?_⟩
  all_goals
    obtain ⟨_, _, _, _, _, _, hp⟩ := D.erase
    have hc := ev_call hp [(F, f), (A, a), (E, e)] (by
      simp only [List.mem_cons, List.not_mem_nil, or_false, forall_eq_or_imp, forall_eq]; exact ⟨hF, hA, hE⟩) (by
      simp only [List.mem_cons, List.not_mem_nil, or_false, forall_eq_or_imp, forall_eq]; exact ⟨L.value, Ha.value, he⟩) v
  · rintro ⟨⟨xs, rfl⟩, h⟩
    exact ⟨xs, rfl, by rw [(ev_iff (ev_erase D L.value L.nilValue L.nilNotApp he xs (Ha.values L rfl))).mp (hc.mp h)]⟩
  · rintro ⟨xs, rfl, h⟩
    simp only [Option.some.injEq] at h
    subst h
    exact ⟨⟨xs, rfl⟩, hc.mpr (ev_erase D L.value L.nilValue L.nilNotApp he xs (Ha.values L rfl))⟩

/-- **C76**.  `($eo_list_erase_all F A E)` and `(eo::list_erase_all F A E)`. -/
theorem C76_erase_all {F A E a e v : Term} (hF : EvaluatesTo env ctx F f) (hA : EvaluatesTo env ctx A a) (hE : EvaluatesTo env ctx E e)
    (Ha : ListArg env S f ct nil a) (he : IsValue e) (hv : IsValue v) :
    EvaluatesTo env ctx (eraseAllDef S F A E) v ↔ EvaluatesTo env ctx (.node EVAL_LIST_ERASE_ALL [F, A, E]) v := by
  rw [binary_iff L (.inr (.inr (.inr rfl))) hF hA hE Ha he hv (fun xs => some (rlist f nil (xs.filter fun y => decide (y ≠ e)))) fun xs _ => by
    rw [C15_erase_all L.nilNotApp f e xs]; rfl]
  refine (guarded_list D L hF hA Ha hv).trans ⟨?_, ?_⟩
  all_goals
    obtain ⟨_, _, _, _, _, _, hp⟩ := D.eraseAll
    have hc := ev_call hp [(F, f), (A, a), (E, e)] (by
      simp only [List.mem_cons, List.not_mem_nil, or_false, forall_eq_or_imp, forall_eq]; exact ⟨hF, hA, hE⟩) (by
      simp only [List.mem_cons, List.not_mem_nil, or_false, forall_eq_or_imp, forall_eq]; exact ⟨L.value, Ha.value, he⟩) v
  · rintro ⟨⟨xs, rfl⟩, h⟩
    exact ⟨xs, rfl, by rw [(ev_iff (ev_eraseAll D L.value L.nilValue L.nilNotApp he xs (Ha.values L rfl))).mp (hc.mp h)]⟩
  · rintro ⟨xs, rfl, h⟩
    simp only [Option.some.injEq] at h
    subst h
    exact ⟨⟨xs, rfl⟩, hc.mpr (ev_eraseAll D L.value L.nilValue L.nilNotApp he xs (Ha.values L rfl))⟩

/-- **C76**.  `($eo_list_find F A E)` and `(eo::list_find F A E)`. -/
theorem C76_find {F A E a e v : Term} (hF : EvaluatesTo env ctx F f) (hA : EvaluatesTo env ctx A a) (hE : EvaluatesTo env ctx E e)
    (Ha : ListArg env S f ct nil a) (he : IsValue e) (hl : Elements f nil a fun xs => xs.length ≤ 2^32) (hv : IsValue v) :
    EvaluatesTo env ctx (findDef S F A E) v ↔ EvaluatesTo env ctx (.node EVAL_LIST_FIND [F, A, E]) v := by
  rw [binary_iff L (.inr (.inl rfl)) hF hA hE Ha he hv
    (fun xs => some (findFrom 0 (indexOf e xs))) fun xs e' => by
    cases h : indexOf e xs with
    | some i => rw [C15_find_some L.nilNotApp f e xs (hl xs e') i ((indexOf_some e xs i).mp h)]; simp [Out.ofRes, int, findFrom]
    | none => rw [C15_find_none L.nilNotApp f e xs ((indexOf_none e xs).mp h)]; rfl]
  refine (guarded_list D L hF hA Ha hv).trans ⟨?_, ?_⟩
  all_goals
    obtain ⟨_, _, _, _, _, _, _, hp⟩ := D.find
    have hc := ev_call hp [(F, f), (A, a), (E, e), (int 0, int 0)] (by
      simp only [List.mem_cons, List.not_mem_nil, or_false, forall_eq_or_imp, forall_eq]; exact ⟨hF, hA, hE, value_eval _ _ _ (int_value _)⟩) (by
      simp only [List.mem_cons, List.not_mem_nil, or_false, forall_eq_or_imp, forall_eq]; exact ⟨L.value, Ha.value, he, int_value _⟩) v
  · rintro ⟨⟨xs, rfl⟩, h⟩
    exact ⟨xs, rfl, by rw [(ev_iff (ev_find D L.value L.nilValue L.nilNotApp he xs 0 (Ha.values L rfl))).mp (hc.mp h)]⟩
  · rintro ⟨xs, rfl, h⟩
    rw [Option.some.injEq] at h
    subst h
    exact ⟨⟨xs, rfl⟩, hc.mpr (ev_find D L.value L.nilValue L.nilNotApp he xs 0 (Ha.values L rfl))⟩

omit D L in
/-- the element that `nth` returns -/
def nthOf (n : Term) (xs : List Term) : Option Term :=
  match n with
  | .lit (.num z) => if z < 0 then none else xs[z.toNat]?
  | _ => none

omit D in
theorem nth_builtin (n : Term) (xs : List Term) (hl : xs.length ≤ 2^32) :
    Out.ofRes (evalListOp EVAL_LIST_NTH f nil false [f, rlist f nil xs, n]) = .ok (nthOf n xs) := by
  by_cases hn : ∃ z, n = .lit (.num z)
  · obtain ⟨z, rfl⟩ := hn
    rw [C15_nth L.nilNotApp f xs hl z]
    by_cases h : 0 ≤ z ∧ z < xs.length
    · have h1 : ¬ z < 0 := by omega
      have h2 : z.toNat < xs.length := by omega
      simp [h, Out.ofRes, nthOf, h1]
    · simp only [h, dite_false, Out.ofRes, nthOf]
      by_cases h1 : z < 0
      · simp [h1]
      · have : xs.length ≤ z.toNat := by omega
        simp [h1, this]
  · have h1 : evalListOp EVAL_LIST_NTH f nil false [f, rlist f nil xs, n] = .null := by
      simp only [evalListOp, argAt, Res.bind, List.getElem?_cons_succ, List.getElem?_cons_zero]
      split
      · rename_i z; exact absurd ⟨z, rfl⟩ hn
      · rfl
    have h2 : nthOf n xs = none := by
      unfold nthOf
      split
      · rename_i z; exact absurd ⟨z, rfl⟩ hn
      · rfl
    rw [h1, h2]; rfl

/-- what the program returns -/
theorem nth_program (n : Term) (hn : IsValue n) (xs : List Term) (hx : ∀ x ∈ xs, IsValue x) {v : Term} (hv : IsValue v) :
    EvaluatesTo env [] (call S.nth [f, rlist f nil xs, n]) v ↔ nthOf n xs = some v := by
  by_cases h : ∃ i : Nat, i < xs.length ∧ n = int i
  · obtain ⟨i, hi, rfl⟩ := h
    rw [ev_iff (ev_nth_in D L.value L.nilValue L.nilNotApp xs i hi hx)]
    have : nthOf (int i) xs = some xs[i] := by
      have h1 : ¬ (i : Int) < 0 := by omega
      simp [nthOf, int, h1, hi]
    rw [this]
    exact ⟨fun h => by rw [h], fun h => by simpa using h.symm⟩
  · obtain ⟨w, h1, h2⟩ := ev_nth_out D L.value L.nilValue L.nilNotApp xs n hn (fun i hi e => h ⟨i, hi, e⟩) hx
    rw [ev_iff h1]
    refine iff_of_false (fun e => h2 (e ▸ hv)) fun e => ?_
    unfold nthOf at e
    split at e
    · rename_i z
      split at e
      · simp at e
      · obtain ⟨hlt, _⟩ := List.getElem?_eq_some_iff.mp e
        exact h ⟨z.toNat, hlt, by simp only [int]; congr 2; omega⟩
    · simp at e

/-- **C76**.  `($eo_list_nth F A N)` and `(eo::list_nth F A N)`. -/
theorem C76_nth {F A N a n v : Term} (hF : EvaluatesTo env ctx F f) (hA : EvaluatesTo env ctx A a) (hN : EvaluatesTo env ctx N n)
    (Ha : ListArg env S f ct nil a) (hn : IsValue n) (hl : Elements f nil a fun xs => xs.length ≤ 2^32) (hv : IsValue v) :
    EvaluatesTo env ctx (nthDef S F A N) v ↔ EvaluatesTo env ctx (.node EVAL_LIST_NTH [F, A, N]) v := by
  rw [binary_iff L (.inl rfl) hF hA hN Ha hn hv
    (nthOf n) fun xs e' => nth_builtin L n xs (hl xs e')]
  refine (guarded_list D L hF hA Ha hv).trans ⟨?_, ?_⟩
  all_goals
    obtain ⟨_, _, _, _, _, hp⟩ := D.nth
    have hc := ev_call hp [(F, f), (A, a), (N, n)] (by
      simp only [List.mem_cons, List.not_mem_nil, or_false, forall_eq_or_imp, forall_eq]; exact ⟨hF, hA, hN⟩) (by
      simp only [List.mem_cons, List.not_mem_nil, or_false, forall_eq_or_imp, forall_eq]; exact ⟨L.value, Ha.value, hn⟩) v
  · rintro ⟨⟨xs, rfl⟩, h⟩
    exact ⟨xs, rfl, (nth_program D L n hn xs (Ha.values L rfl) hv).mp (hc.mp h)⟩
  · rintro ⟨xs, rfl, h⟩
    exact ⟨⟨xs, rfl⟩, hc.mpr ((nth_program D L n hn xs (Ha.values L rfl) hv).mpr h)⟩

/-- **C76**.  `($eo_list_concat F A B)` and `(eo::list_concat F A B)`. -/
theorem C76_concat {F A B a b v : Term} (hF : EvaluatesTo env ctx F f) (hA : EvaluatesTo env ctx A a) (hB : EvaluatesTo env ctx B b)
    (Ha : ListArg env S f ct nil a) (Hb : ListArg env S f ct nil b) (hv : IsValue v) :
    EvaluatesTo env ctx (concatDef S F A B) v ↔ EvaluatesTo env ctx (.node EVAL_LIST_CONCAT [F, A, B]) v := by
  rw [lists_iff L (.inl rfl) hF hA hB Ha Hb hv (fun xs ys => rlist f nil (xs ++ ys)) fun xs ys _ _ => C15_concat L.nilNotApp f xs ys]
  refine (guarded_list D L hF hA Ha hv).trans ((and_congr_right fun _ => guarded_list D L hF hB Hb hv).trans ⟨?_, ?_⟩)
  all_goals
    obtain ⟨_, _, _, _, _, _, hp⟩ := D.concat
    have hc := ev_call hp [(F, f), (A, a), (B, b)] (by
      simp only [List.mem_cons, List.not_mem_nil, or_false, forall_eq_or_imp, forall_eq]; exact ⟨hF, hA, hB⟩) (by
      simp only [List.mem_cons, List.not_mem_nil, or_false, forall_eq_or_imp, forall_eq]; exact ⟨L.value, Ha.value, Hb.value⟩) v
  · rintro ⟨⟨xs, rfl⟩, ⟨ys, rfl⟩, h⟩
    exact ⟨xs, ys, rfl, rfl, by
      rw [← rlist_onto]; exact (ev_iff (ev_concat D L.value L.nilValue L.nilNotApp Hb.value xs (Ha.values L rfl))).mp (hc.mp h)⟩
  · rintro ⟨xs, ys, rfl, rfl, rfl⟩
    exact ⟨⟨xs, rfl⟩, ⟨ys, rfl⟩, hc.mpr (by
      rw [← rlist_onto]; exact ev_concat D L.value L.nilValue L.nilNotApp Hb.value xs (Ha.values L rfl))⟩

/-- **C76**.  `($eo_list_diff F A B)` and `(eo::list_diff F A B)`. -/
theorem C76_diff {F A B a b v : Term} (hF : EvaluatesTo env ctx F f) (hA : EvaluatesTo env ctx A a) (hB : EvaluatesTo env ctx B b)
    (Ha : ListArg env S f ct nil a) (Hb : ListArg env S f ct nil b) (hl : Elements f nil b fun ys => ys.length < 2^32)
    (hN : Elements f nil b (NilOn env S f nil)) (hv : IsValue v) :
    EvaluatesTo env ctx (diffDef S F A B) v ↔ EvaluatesTo env ctx (.node EVAL_LIST_DIFF [F, A, B]) v := by
  rw [lists_iff L (.inr (.inl rfl)) hF hA hB Ha Hb hv (fun xs ys => rlist f nil (mdiff xs ys)) fun xs ys _ e => C16_diff L.nilNotApp f xs ys (hl ys e)]
  refine (guarded_list D L hF hA Ha hv).trans ((and_congr_right fun _ => guarded_list D L hF hB Hb hv).trans ⟨?_, ?_⟩)
  all_goals
    obtain ⟨_, _, _, _, _, _, hp⟩ := D.diff
    have hc := ev_call hp [(F, f), (A, a), (B, b)] (by
      simp only [List.mem_cons, List.not_mem_nil, or_false, forall_eq_or_imp, forall_eq]; exact ⟨hF, hA, hB⟩) (by
      simp only [List.mem_cons, List.not_mem_nil, or_false, forall_eq_or_imp, forall_eq]; exact ⟨L.value, Ha.value, Hb.value⟩) v
  · rintro ⟨⟨xs, rfl⟩, ⟨ys, rfl⟩, h⟩
    exact ⟨xs, ys, rfl, rfl, (ev_iff (ev_diff D L.value L.nilValue L.nilNotApp xs ys (Ha.values L rfl) (Hb.values L rfl) (hN ys rfl))).mp (hc.mp h)⟩
  · rintro ⟨xs, ys, rfl, rfl, rfl⟩
    exact ⟨⟨xs, rfl⟩, ⟨ys, rfl⟩, hc.mpr (ev_diff D L.value L.nilValue L.nilNotApp xs ys (Ha.values L rfl) (Hb.values L rfl) (hN ys rfl))⟩

/-- **C76**.  `($eo_list_inter F A B)` and `(eo::list_inter F A B)`. -/
theorem C76_inter {F A B a b v : Term} (hF : EvaluatesTo env ctx F f) (hA : EvaluatesTo env ctx A a) (hB : EvaluatesTo env ctx B b)
    (Ha : ListArg env S f ct nil a) (Hb : ListArg env S f ct nil b) (hl : Elements f nil b fun ys => ys.length < 2^32)
    (hN : Elements f nil b (NilOn env S f nil)) (hv : IsValue v) :
    EvaluatesTo env ctx (interDef S F A B) v ↔ EvaluatesTo env ctx (.node EVAL_LIST_INTER [F, A, B]) v := by
  rw [lists_iff L (.inr (.inr (.inl rfl))) hF hA hB Ha Hb hv (fun xs ys => rlist f nil (minter xs ys))
    fun xs ys _ e => C16_inter L.nilNotApp f xs ys (hl ys e)]
  refine (guarded_list D L hF hA Ha hv).trans ((and_congr_right fun _ => guarded_list D L hF hB Hb hv).trans ⟨?_, ?_⟩)
  all_goals
    obtain ⟨_, _, _, _, _, _, hp⟩ := D.inter
    have hc := ev_call hp [(F, f), (A, a), (B, b)] (by
      simp only [List.mem_cons, List.not_mem_nil, or_false, forall_eq_or_imp, forall_eq]; exact ⟨hF, hA, hB⟩) (by
      simp only [List.mem_cons, List.not_mem_nil, or_false, forall_eq_or_imp, forall_eq]; exact ⟨L.value, Ha.value, Hb.value⟩) v
  · rintro ⟨⟨xs, rfl⟩, ⟨ys, rfl⟩, h⟩
    exact ⟨xs, ys, rfl, rfl, (ev_iff (ev_inter D L.value L.nilValue L.nilNotApp xs ys (Ha.values L rfl) (Hb.values L rfl) (hN ys rfl))).mp (hc.mp h)⟩
  · rintro ⟨xs, ys, rfl, rfl, rfl⟩
    exact ⟨⟨xs, rfl⟩, ⟨ys, rfl⟩, hc.mpr (ev_inter D L.value L.nilValue L.nilNotApp xs ys (Ha.values L rfl) (Hb.values L rfl) (hN ys rfl))⟩

/-- what `$eo_list_minclude` returns -/
theorem ev_mincludeDef {F A B a b v ct' : Term} (hF : EvaluatesTo env ctx F f) (hA : EvaluatesTo env ctx A a) (hB : EvaluatesTo env ctx B b)
    (Ha : ListArg env S f ct nil a) (Hb : ListArg env S f ct nil b) (hEa : Elements f nil a (ElementList env S ct'))
    (hEb : Elements f nil b (ElementList env S ct')) (hv : IsValue v) :
    EvaluatesTo env ctx (mincludeDef S F A B) v ↔
      ∃ xs ys, a = rlist f nil xs ∧ b = rlist f nil ys ∧ v = boolVal (decide (∀ x ∈ xs, mult x xs ≤ mult x ys)) := by
  refine (guarded_list D L hF hA Ha hv).trans ((and_congr_right fun _ => guarded_list D L hF hB Hb hv).trans ?_)
  have key : ∀ xs ys, a = rlist f nil xs → b = rlist f nil ys →
      EvaluatesTo env ctx (call S.minclude [getElementsDef S F A, getElementsDef S F B]) (boolVal (decide (∀ x ∈ xs, mult x xs ≤ mult x ys))) := by
    rintro xs ys rfl rfl
    have K := hEa xs rfl
    have K' := hEb ys rfl
    have hx := Ha.values L rfl
    have hy := Hb.values L rfl
    obtain ⟨_, _, _, _, hp⟩ := D.minclude
    refine (ev_call hp [(getElementsDef S F A, rlist S.cons S.nilList xs), (getElementsDef S F B, rlist S.cons S.nilList ys)] (by
      simpa using ⟨ev_getElementsDef D L.value L.nilValue L.nilNotApp hF hA hx Ha.nilDef K,
        ev_getElementsDef D L.value L.nilValue L.nilNotApp hF hB hy Hb.nilDef K'⟩) (by
      simpa using ⟨(value_rlist K.op.value K.op.nilValue xs).mpr hx, (value_rlist K.op.value K.op.nilValue ys).mpr hy⟩) _).mpr ?_
    obtain ⟨b, h1, h2⟩ := ev_minclude D K.op xs ys hx hy K'.nilOn
    have : b = decide (∀ x ∈ xs, mult x xs ≤ mult x ys) := by
      rw [Bool.eq_iff_iff, h2, decide_eq_true_iff]
      refine ⟨fun h x _ => h x, fun h y => ?_⟩
      by_cases hm : y ∈ xs
      · exact h y hm
      · have : mult y xs = 0 := by
          have := mt (mult_pos_iff y xs).mp hm
          omega
        omega
    exact this ▸ h1
  constructor
  · rintro ⟨⟨xs, h1⟩, ⟨ys, h2⟩, h⟩
    exact ⟨xs, ys, h1, h2, (ev_iff (key xs ys h1 h2)).mp h⟩
  · rintro ⟨xs, ys, h1, h2, rfl⟩
    exact ⟨⟨xs, h1⟩, ⟨ys, h2⟩, key xs ys h1 h2⟩

/-- **C76**.  `($eo_list_minclude F A B)` and `(eo::list_minclude F A B)`. -/
theorem C76_minclude {F A B a b v ct' : Term} (hF : EvaluatesTo env ctx F f) (hA : EvaluatesTo env ctx A a) (hB : EvaluatesTo env ctx B b)
    (Ha : ListArg env S f ct nil a) (Hb : ListArg env S f ct nil b) (hla : Elements f nil a fun xs => xs.length < 2^32)
    (hlb : Elements f nil b fun ys => ys.length < 2^32) (hEa : Elements f nil a (ElementList env S ct'))
    (hEb : Elements f nil b (ElementList env S ct')) (hv : IsValue v) :
    EvaluatesTo env ctx (mincludeDef S F A B) v ↔ EvaluatesTo env ctx (.node EVAL_LIST_MINCLUDE [F, A, B]) v := by
  rw [lists_iff L (.inr (.inr (.inr (.inl rfl)))) hF hA hB Ha Hb hv (fun xs ys => boolVal (decide (∀ x ∈ xs, mult x xs ≤ mult x ys)))
    fun xs ys e e' => C16_minclude L.nilNotApp f xs ys (hla xs e) (hlb ys e')]
  exact ev_mincludeDef D L hF hA hB Ha Hb hEa hEb hv

omit D L in
/-- a conjunction gives a value only if both of its arguments do -/
theorem ev_and_inv {c d v : Term} (hv : IsValue v) (h : EvaluatesTo env ctx (.node EVAL_AND [c, d]) v) :
    ∃ c' d', IsValue c' ∧ IsValue d' ∧ EvaluatesTo env ctx c c' ∧ EvaluatesTo env ctx d d' := by
  rw [evaluatesTo_iff] at h
  cases h with
  | op _ _ _ cs' _ _ _ _ hl ho =>
    cases hl with
    | cons _ _ _ c' _ h1 hl =>
    cases hl with
    | cons _ _ _ d' _ h2 hl =>
    cases hl
    have hlit : allLits [c', d'] ≠ none := fun e =>
      opResult_none (nonlit_result env EVAL_AND [c', d'] (fun _ => rfl) (by simp) (by simp) rfl e) ho
    have hl : (∃ l, c' = .lit l) ∧ ∃ l, d' = .lit l := by
      cases c' <;> cases d' <;> simp_all [allLits, asLit]
    obtain ⟨⟨l, rfl⟩, l', rfl⟩ := hl
    exact ⟨_, _, lit_value _, lit_value _, (evaluatesTo_iff _ _ _ _).mpr h1, (evaluatesTo_iff _ _ _ _).mpr h2⟩
  | opStuck _ _ _ cs' _ _ _ hl ho => exact absurd hv (not_value_node _ _ rfl (by cases hl; simp))
  | bound _ _ _ hp => simp [IsParam, Term.children] at hp
  | free _ _ hp => simp [IsParam, Term.children] at hp
  | leaf _ _ _ hc => simp [Term.children] at hc
  | progStuck _ _ _ _ _ h => simp at h
  | progConst _ _ _ _ _ _ _ h => simp at h
  | progRun _ _ _ _ _ _ _ _ h => simp at h
  | app _ _ _ _ _ h => simp at h
  | other _ _ _ _ h => simp [isLiteralOp] at h

omit D L in
theorem ev_and {c d : Term} {b b' : Bool} (h1 : EvaluatesTo env ctx c (boolVal b)) (h2 : EvaluatesTo env ctx d (boolVal b')) :
    EvaluatesTo env ctx (.node EVAL_AND [c, d]) (boolVal (b && b')) :=
  (C31_operator env ctx EVAL_AND [(c, boolVal b), (d, boolVal b')] rfl (by simp) (by simp) (by simpa using ⟨h1, h2⟩) _).mpr
    (.inl (litop_result env EVAL_AND [.bool b, .bool b'] (some (.bool (b && b'))) (fun _ => rfl) (by simp) (by simp) rfl rfl))

/-- **C76**.  `($eo_list_meq F A B)` and `(eo::list_meq F A B)`. -/
theorem C76_meq {F A B a b v ct' : Term} (hF : EvaluatesTo env ctx F f) (hA : EvaluatesTo env ctx A a) (hB : EvaluatesTo env ctx B b)
    (Ha : ListArg env S f ct nil a) (Hb : ListArg env S f ct nil b) (hla : Elements f nil a fun xs => xs.length < 2^32)
    (hlb : Elements f nil b fun ys => ys.length < 2^32) (hEa : Elements f nil a (ElementList env S ct'))
    (hEb : Elements f nil b (ElementList env S ct')) (hv : IsValue v) :
    EvaluatesTo env ctx (meqDef S F A B) v ↔ EvaluatesTo env ctx (.node EVAL_LIST_MEQ [F, A, B]) v := by
  have key : ∀ xs ys : List Term, (decide (∀ x ∈ xs, mult x xs ≤ mult x ys) && decide (∀ y ∈ ys, mult y ys ≤ mult y xs)) = true ↔ xs.Perm ys := by
    intro xs ys
    rw [Bool.and_eq_true, decide_eq_true_iff, decide_eq_true_iff, mult_perm_iff]
    constructor
    · rintro ⟨h1, h2⟩ x
      have e1 := mult_pos_iff x xs
      have e2 := mult_pos_iff x ys
      by_cases hx : x ∈ xs
      · have := h1 x hx
        have := h2 x (e2.mp (by have := e1.mpr hx; omega))
        omega
      · by_cases hy : x ∈ ys
        · have := h2 x hy
          have := e2.mpr hy
          exact absurd (e1.mp (by omega)) hx
        · have h3 := mt e1.mp hx
          have h4 := mt e2.mp hy
          omega
    · intro h
      exact ⟨fun x _ => Nat.le_of_eq (h x), fun x _ => Nat.le_of_eq (h x).symm⟩
  rw [lists_iff L (.inr (.inr (.inr (.inr rfl)))) hF hA hB Ha Hb hv
    (fun xs ys => boolVal (decide (∀ x ∈ xs, mult x xs ≤ mult x ys) && decide (∀ y ∈ ys, mult y ys ≤ mult y xs))) fun xs ys e e' => by
    obtain ⟨b, h1, h2⟩ := C16_meq L.nilNotApp f xs ys (hla xs e) (hlb ys e')
    rw [h1]
    have : b = (decide (∀ x ∈ xs, mult x xs ≤ mult x ys) && decide (∀ y ∈ ys, mult y ys ≤ mult y xs)) := by
      rw [Bool.eq_iff_iff, h2, key]
    rw [this]; rfl]
  have m1 := fun v (hv : IsValue v) => ev_mincludeDef D L hF hA hB Ha Hb hEa hEb hv
  have m2 := fun v (hv : IsValue v) => ev_mincludeDef D L hF hB hA Hb Ha hEb hEa hv
  constructor
  · intro h
    obtain ⟨c', d', hc, hd, h1, h2⟩ := ev_and_inv hv h
    obtain ⟨xs, ys, rfl, rfl, rfl⟩ := (m1 c' hc).mp h1
    obtain ⟨ys', xs', e1, e2, rfl⟩ := (m2 d' hd).mp h2
    rw [C14_injective f nil L.nilNotApp] at e1 e2
    subst e1; subst e2
    exact ⟨xs, ys, rfl, rfl, (ev_iff (ev_and h1 h2)).mp h⟩
  · rintro ⟨xs, ys, rfl, rfl, rfl⟩
    exact ev_and ((m1 _ (bool_value _)).mpr ⟨xs, ys, rfl, rfl, rfl⟩) ((m2 _ (bool_value _)).mpr ⟨ys, xs, rfl, rfl, rfl⟩)

end
end Ethos.Props
