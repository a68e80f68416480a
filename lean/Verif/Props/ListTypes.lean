import Verif.Props.OpTypes
import Verif.Props.Rules
import Verif.Lemmas.ListClosed
import Verif.Spec.ListTypes
/-
C55 for the operators on lists: the type of the application and the type of its value.
-/
namespace Ethos.Props
open Ethos Kind Spec

theorem value_sub {s t : Term} (h : IsValue t) (hs : Sub s t) : IsValue s := fun r hr => h r (hr.trans hs)

theorem value_fnType {a r : Term} : IsValue (fnType a r) ↔ IsValue a ∧ IsValue r := by
  constructor
  · intro h
    exact ⟨value_sub h (.child _ FUNCTION_TYPE [a, r] a (by simp) (.refl _)), value_sub h (.child _ FUNCTION_TYPE [a, r] r (by simp) (.refl _))⟩
  · rintro ⟨h1, h2⟩ s hs
    rcases hs.inv with rfl | ⟨c, hc, hs'⟩
    · refine ⟨?_, ?_, ?_⟩ <;> simp [fnType, IsParam, IsAny, IsComputation, Term.kind, isLiteralOp]
    · simp only [fnType, Term.children, List.mem_cons, List.not_mem_nil, or_false] at hc
      rcases hc with rfl | rfl
      · exact h1 s hs'
      · exact h2 s hs'

/-- a function whose argument and return types are closed and reduced is applied to one argument of that type -/
theorem fnType_app {env : Env} {f a r x ty : Term} {rest : List Term} (hf : TypeResult env f (some (fnType a r))) (ha : ReducedType a) (hr : IsValue r) :
    TypeResult env (.node APPLY (f :: x :: rest)) (some ty) ↔ rest = [] ∧ TypeResult env x (some a) ∧ ty = r := by
  have hsub : ∀ σ, subst σ a = a := fun σ => subst_ground σ a ((isValue_iff a).1 ha.1).1
  have hpat : argPattern a = a := argPattern_plain ha.2
  constructor
  · intro h
    obtain ⟨⟨k, doms, ret, ctx, _, h1, h2, _, h4, h5⟩⟩ := C45_sound h
    have he := TypeResult.det hf h1
    simp only [fnType, Option.some.injEq, Term.node.injEq] at he
    obtain ⟨-, he⟩ := he
    obtain ⟨d, rfl⟩ : ∃ d, doms = [d] := by
      have := congrArg List.length he
      simp only [List.length_cons, List.length_nil, List.length_append] at this
      match doms, this with
      | [d], _ => exact ⟨d, rfl⟩
    simp only [List.cons_append, List.nil_append, List.cons.injEq, and_true] at he
    obtain ⟨rfl, rfl⟩ := he
    have hrest : rest = [] := by
      cases rest with
      | nil => rfl
      | cons y ys => simp at h2
    refine ⟨hrest, ?_, EvaluatesTo.det h5 (value_eval env ctx _ hr)⟩
    cases h4 0 _ _ rfl rfl with
    | plain _ _ _ h => rwa [hsub] at h
    | quote q _ _ _ _ _ _ => exact absurd rfl ha.2
  · rintro ⟨rfl, h, rfl⟩
    refine C45_complete (doms := [a]) (ctx := []) (.inl rfl) hf rfl ?_ ?_ (value_eval env _ _ hr) ?_ (fun _ => hr)
    · intro p
      constructor
      · rintro ⟨v, hv⟩; simp [Ctx.find] at hv
      · rintro ⟨hp, d, hd, hs⟩
        simp only [List.mem_singleton] at hd
        subst hd
        rw [hpat] at hs
        exact absurd hp (ha.1 p hs).1
    · intro i d t hd ht
      cases i with
      | zero =>
        simp only [List.getElem?_cons_zero, Option.some.injEq] at hd ht
        subst hd ht
        exact .plain _ _ ha.2 (by rwa [hsub])
      | succ i => simp at hd
    · intro d hd s hs
      simp only [List.mem_singleton] at hd
      subst hd
      rw [hpat] at hs
      exact (ha.1 s hs).2.1

/-- typing of `((f x) y)` when `f` is declared `(-> a b r)` -/
theorem fnType_app2 {env : Env} {f a b r x y ty : Term} {r1 r2 : List Term} (hf : TypeResult env f (some (fnType a (fnType b r)))) (ha : ReducedType a)
    (hb : ReducedType b) (hr : IsValue r) :
    TypeResult env (.node APPLY (.node APPLY (f :: x :: r1) :: y :: r2)) (some ty) ↔
      r1 = [] ∧ r2 = [] ∧ TypeResult env x (some a) ∧ TypeResult env y (some b) ∧ ty = r := by
  have hv := value_fnType.2 ⟨hb.1, hr⟩
  constructor
  · intro h
    obtain ⟨n, cts, h1, -⟩ := typeResult_node h
    have hlen := typesOf_length h1
    obtain ⟨c, h2⟩ : ∃ c, cts[0]? = some c := ⟨cts[0]'(by rw [hlen]; simp), by simp⟩
    obtain ⟨z, h3, h4⟩ := typesOf_get h1 h2
    simp only [List.getElem?_cons_zero, Option.some.injEq] at h3
    subst h3
    have h5 : TypeResult env (.node APPLY (f :: x :: r1)) (some c) := ⟨n, h4⟩
    obtain ⟨g1, g2, rfl⟩ := (fnType_app hf ha hv).1 h5
    obtain ⟨g3, g4, g5⟩ := (fnType_app h5 hb hr).1 h
    exact ⟨g1, g3, g2, g4, g5⟩
  · rintro ⟨rfl, rfl, h1, h2, rfl⟩
    exact (fnType_app ((fnType_app hf ha hv).2 ⟨rfl, h1, rfl⟩) hb hr).2 ⟨rfl, h2, rfl⟩

/-- the terms of type `A` and the terms of type `B` are closed under building and taking apart lists of `f` -/
theorem _root_.Ethos.Spec.ListOperator.closed {env : Env} {f nil : Term} {left : Bool} {A B : Term} (H : ListOperator env f nil left A B) :
    ListClosed f nil left (fun t => TypeResult env t (some A)) (fun t => TypeResult env t (some B)) := by
  have ht := H.typed
  refine ⟨H.terminator, ?_, ?_⟩
  · intro x l hx hl
    cases left with
    | true => exact (fnType_app2 ht H.list H.elem H.list.1).2 ⟨rfl, rfl, hl, hx, rfl⟩
    | false => exact (fnType_app2 ht H.elem H.list H.list.1).2 ⟨rfl, rfl, hx, hl, rfl⟩
  · intro a b r1 r2 h
    cases left with
    | true =>
      obtain ⟨-, -, h1, h2, -⟩ := (fnType_app2 ht H.list H.elem H.list.1).1 h
      exact ⟨h1, h2⟩
    | false =>
      obtain ⟨-, -, h1, h2, -⟩ := (fnType_app2 ht H.elem H.list H.list.1).1 h
      exact ⟨h1, h2⟩

/-- a typed list of `f` has type `B` -/
theorem _root_.Ethos.Spec.ListOperator.list_type {env : Env} {f nil : Term} {left : Bool} {A B l ty : Term} (H : ListOperator env f nil left A B)
    (h : TypeResult env l (some ty)) (hl : (naryLoop f left l).2 = nil) : ty = B := by
  have ht := H.typed
  unfold naryLoop at hl
  split at hl
  · rename_i o a r1 b r2
    by_cases ho : o = f
    · subst ho
      cases left with
      | true => exact ((fnType_app2 ht H.list H.elem H.list.1).1 h).2.2.2.2
      | false => exact ((fnType_app2 ht H.elem H.list H.list.1).1 h).2.2.2.2
    · simp only [ho, if_false] at hl
      rw [hl] at h
      simpa using TypeResult.det h H.terminator
  · simp only at hl
    rw [hl] at h
    simpa using TypeResult.det h H.terminator

theorem lit_list_null {k : Kind} {ls : List Lit} {l : Lit} (hk : isListLiteralOp k = true) : Lit.evaluate k ls ≠ .val l := by
  intro h
  unfold isListLiteralOp at hk
  split at hk <;>
  first
  | (unfold Lit.evaluate at h
     split at h
     · simp at h
     · split at h <;> simp at h)
  | simp at hk

/-- what a successful application of a list operator other than `eo::nil` has done -/
theorem list_result {env : Env} {k : Kind} {args : List Term} {v : Term} (hk : isListLiteralOp k = true) (hn : k ≠ EVAL_NIL)
    (h : OpResult env k args (some v)) : ∃ n a0 op ai a1 nil, args[0]? = some a0 ∧
      (if a0.kind = PARAMETERIZED then argO a0.children 1 else .ok a0) = .ok op ∧
      env.appInfo op = some ai ∧ isListNilAttr ai.attr = true ∧ args[1]? = some a1 ∧ consTerm (ops env n) ai [a0, a1] = .ok (some nil) ∧
      evalListOp k op nil (decide (ai.attr = .LEFT_ASSOC_NIL) || decide (ai.attr = .LEFT_ASSOC_NS_NIL)) args = .val v := by
  obtain ⟨m, hm⟩ := h
  cases m with
  | zero => simp [ops] at hm
  | succ m =>
    replace hm : opStep env (ops env m) k args = .ok (some v) := hm
    have hg : evalValues env (ops env m) k args = .ok (some v) := by
      have hg : evalGround env (ops env m) k args = .ok (some v) := by
        unfold opStep at hm
        split at hm
        · simp [isListLiteralOp] at hk
        · simp [isListLiteralOp] at hk
        · split at hm
          · simp at hm
          · exact hm
      unfold evalGround at hg
      split at hg <;> first | exact hg | simp [isListLiteralOp] at hk
    unfold evalValues at hg
    split at hg
    · split at hg
      · simp at hg
      · obtain ⟨x, h1, h2⟩ := map_ok hg
        cases x with
        | none => simp at h2
        | some l => exact absurd (ofRes_some h1) (lit_list_null hk)
    · simp only [hk, Bool.not_true, Bool.false_eq_true, if_false] at hg
      unfold evalList at hg
      obtain ⟨a0, h0, hg⟩ := bind_ok hg
      obtain ⟨op, h1, hg⟩ := bind_ok hg
      split at hg
      · simp at hg
      · rename_i ai hai
        split at hg
        · simp at hg
        · rename_i hat
          simp only at hg
          split at hg
          · simp at hg
          · rename_i a1 ha1
            obtain ⟨nl, h2, hg⟩ := bind_ok hg
            cases nl with
            | none => simp at hg
            | some nl =>
              refine ⟨m, a0, op, ai, a1, nl, argO_ok h0, h1, hai, by simpa using hat, ha1, h2, ofRes_some hg⟩

/-- the same for a declared operator -/
theorem list_declared {env : Env} {k : Kind} {f o c ct nil v : Term} {rest : List Term} {a : Attr} {left : Bool} (hk : isListLiteralOp k = true)
    (hk' : k ≠ EVAL_NIL) (ho : Names f o) (hd : Declared env f a ct) (ha : NilAttr a left) (hn : NilFor env o c ct nil)
    (h : OpResult env k (o :: c :: rest) (some v)) : evalListOp k f nil left (o :: c :: rest) = .val v := by
  obtain ⟨n, a0, op, ai, a1, nl, h0, h1, h2, _, h3, h4, h5⟩ := list_result hk hk' h
  simp only [List.getElem?_cons_zero, List.getElem?_cons_succ, Option.some.injEq] at h0 h3
  subst h0 h3
  rw [names_op ho] at h1
  cases h1
  obtain ⟨K, ov, hd⟩ := hd
  rw [hd] at h2
  simp only [Option.some.injEq] at h2
  subst h2
  obtain ⟨m, h6⟩ := consTerm_nilFor (k := K) (ov := ov) ha hn
  have g1 := (consTerm_mono (ops_mono env (Nat.le_max_left n m)) _ _).ok h4
  have g2 := (consTerm_mono (ops_mono env (Nat.le_max_right n m)) _ _).ok h6
  rw [g1] at g2
  simp only [Out.ok.injEq, Option.some.injEq] at g2
  subst g2
  rwa [nilAttr_left ha] at h5

theorem children_end {f nil l : Term} {left : Bool} {cs : List Term} (h : getNAryChildren f nil left l = some cs) : (naryLoop f left l).2 = nil := by
  unfold getNAryChildren at h
  simp only at h
  split at h
  · simp at h
  · rename_i h'; simpa using h'

/-- both arguments of a concatenation that gives a value are lists -/
theorem concat_args {f nil v : Term} {left : Bool} {args : List Term} (h : evalListOp EVAL_LIST_CONCAT f nil left args = .val v) :
    ∀ i, i = 1 ∨ i = 2 → ∀ l, args[i]? = some l → (naryLoop f left l).2 = nil := by
  simp only [evalListOp, Res.bind_val] at h
  obtain ⟨ret, g1, h⟩ := h
  split at h
  · rename_i hret
    simp only [Res.bind_val] at h
    obtain ⟨hd, g2, h⟩ := h
    have e1 : (naryLoop f left ret).2 = nil := by simpa [isNAryList] using hret
    have e2 : (naryLoop f left hd).2 = nil := by
      split at h
      · cases h
      · rename_i cs hc
        exact children_end hc
    have q1 := argAt_get g1
    have q2 := argAt_get g2
    intro i hi l hl
    cases left <;> simp only [Bool.false_eq_true, if_false, if_true] at q1 q2 <;>
    · rcases hi with rfl | rfl
      · first | (rw [hl] at q1; cases q1; assumption) | (rw [hl] at q2; cases q2; assumption)
      · first | (rw [hl] at q1; cases q1; assumption) | (rw [hl] at q2; cases q2; assumption)
  · cases h

/-- the first argument after the operator of a list operator that gives a value is a list, except for `eo::cons` -/
theorem list_arg {k : Kind} {f nil v l : Term} {left : Bool} {args : List Term} (hk : isListLiteralOp k = true) (hc : k ≠ EVAL_CONS)
    (ha : args[1]? = some l) (h : evalListOp k f nil left args = .val v) : (naryLoop f left l).2 = nil := by
  have h1 : argAt args 1 = .val l := by simp [argAt, ha]
  have hb : ∀ (F : Term → Res Term), (Res.val l).bind F = F l := fun _ => rfl
  cases hg : getNAryChildren f nil left l with
  | some cs => exact children_end hg
  | none =>
    exfalso
    unfold evalListOp at h
    split at h
    all_goals
      first
      | exact absurd rfl hc
      | (simp only [h1, hb, hg, listErase, listSetOf, listRev, listMPred, listDiffInter, Res.bind_val] at h
         simp at h; done)
      | skip
    · have := concat_args (f := f) (nil := nil) (left := left) h 1 (.inl rfl) l ha
      simp [getNAryChildren, this] at hg
    · simp only [Res.bind_val] at h
      obtain ⟨i, _, h⟩ := h
      split at h
      · split at h
        · simp [h1, Res.bind, hg] at h
        · cases h
      · cases h
    · cases h

/-- the types of the arguments of a typed application -/
theorem arg_typed {env : Env} {n : Nat} {cs cts : List Term} (h : typesOf (ops env n) cs = .ok (some cts)) {i : Nat} {c : Term} (hc : cs[i]? = some c) :
    ∃ t, cts[i]? = some t ∧ TypeResult env c (some t) := by
  have hlt : i < cts.length := by rw [typesOf_length h]; exact (List.getElem?_eq_some_iff.1 hc).1
  obtain ⟨c', h1, h2⟩ := typesOf_get h (List.getElem?_eq_getElem hlt)
  rw [hc] at h1
  cases h1
  exact ⟨_, List.getElem?_eq_getElem hlt, n, h2⟩

/-- the operators whose application has the type of the first argument after the operator -/
def FirstType (k : Kind) : Prop := ListToList k ∨ k = EVAL_CONS ∨ k = EVAL_LIST_NTH ∨ k = EVAL_LIST_SINGLETON_ELIM

theorem firstType_list {k : Kind} (h : FirstType k) : isListLiteralOp k = true ∧ k ≠ EVAL_NIL ∧ isLiteralOp k = true := by
  simp only [FirstType, ListToList, List.mem_cons, List.not_mem_nil, or_false] at h
  rcases h with (rfl | rfl | rfl | rfl | rfl | rfl | rfl) | rfl | rfl | rfl <;> decide

theorem first_type {env : Env} {k : Kind} {o c ty : Term} {rest : List Term} (hk : FirstType k)
    (ht : TypeResult env (.node k (o :: c :: rest)) (some ty)) :
    TypeResult env c (some ty) ∧ ∀ d ∈ rest, ∃ t, TypeResult env d (some t) := by
  obtain ⟨n, cts, h1, h2, -⟩ := op_type (firstType_list hk).2.2 ht
  have h3 : (argO cts 1).map some = .ok (some ty) := by
    simp only [FirstType, ListToList, List.mem_cons, List.not_mem_nil, or_false] at hk
    rcases hk with (rfl | rfl | rfl | rfl | rfl | rfl | rfl) | rfl | rfl | rfl <;>
    · simp only [litOpType] at h2
      split at h2
      · simp at h2
      · exact h2
  obtain ⟨t, h4, h5⟩ := map_ok h3
  simp only [Option.some.injEq] at h5
  subst h5
  constructor
  · obtain ⟨u, h6, h7⟩ := arg_typed h1 (i := 1) (c := c) rfl
    rw [argO_ok h4] at h6
    cases h6
    exact h7
  · intro d hd
    obtain ⟨i, hi⟩ := List.getElem?_of_mem hd
    obtain ⟨u, _, h7⟩ := arg_typed h1 (i := i + 2) (c := d) (by simpa using hi)
    exact ⟨u, h7⟩

/-- **C55** for the operators that give lists.  If the operator `f` is declared with the type `(-> A B B)` (or `(-> B A B)`) and a
terminator of type `B`, and the application has a type, then its value has that type. -/
theorem C55_list_partial {env : Env} {k : Kind} {f nil v ty c A B : Term} {rest : List Term} {a : Attr} {left : Bool} (hk : ListToList k)
    (hf : f.kind ≠ PARAMETERIZED) (hd : Declared env f a nil) (ha : NilAttr a left) (hp : nil.kind ≠ PARAMETERIZED)
    (H : ListOperator env f nil left A B) (ht : TypeResult env (.node k (f :: c :: rest)) (some ty))
    (hv : OpResult env k (f :: c :: rest) (some v)) : TypeResult env v (some ty) ∧ ty = B := by
  have hF : FirstType k := .inl hk
  obtain ⟨q1, q2, _⟩ := firstType_list hF
  have he := list_declared q1 q2 (.plain hf) hd ha (.const _ hp) hv
  obtain ⟨h1, h2⟩ := first_type hF ht
  have hc : k ≠ EVAL_CONS := by rintro rfl; simp [ListToList] at hk
  have hB : ty = B := H.list_type h1 (list_arg q1 hc rfl he)
  subst hB
  refine ⟨evalListOp_closed H.closed hk ?_ ?_ he, rfl⟩
  · intro l hl
    simp only [List.getElem?_cons_succ, List.getElem?_cons_zero, Option.some.injEq] at hl
    exact hl ▸ h1
  · rintro rfl l hl
    have hm : l ∈ rest := by
      simp only [List.getElem?_cons_succ] at hl
      exact List.mem_of_getElem? hl
    obtain ⟨t, h3⟩ := h2 l hm
    have := H.list_type h3 (concat_args he 2 (.inr rfl) l hl)
    exact this ▸ h3

/-- **C55** for `eo::list_nth`, `eo::list_singleton_elim` and `eo::cons` when the elements have the type of the lists: if `f` is declared
with the type `(-> B B B)` and a terminator of type `B`, and, for `eo::cons`, the new element has type `B`, the value has the type of
the application. -/
theorem C55_element_partial {env : Env} {k : Kind} {f nil v ty c B : Term} {rest : List Term} {a : Attr} {left : Bool}
    (hk : k = EVAL_CONS ∨ k = EVAL_LIST_NTH ∨ k = EVAL_LIST_SINGLETON_ELIM)
    (hf : f.kind ≠ PARAMETERIZED) (hd : Declared env f a nil) (ha : NilAttr a left) (hp : nil.kind ≠ PARAMETERIZED)
    (H : ListOperator env f nil left B B) (hx : k = EVAL_CONS → TypeResult env c (some B))
    (ht : TypeResult env (.node k (f :: c :: rest)) (some ty))
    (hv : OpResult env k (f :: c :: rest) (some v)) : TypeResult env v (some ty) ∧ ty = B := by
  have hF : FirstType k := .inr hk
  obtain ⟨q1, q2, _⟩ := firstType_list hF
  have he := list_declared q1 q2 (.plain hf) hd ha (.const _ hp) hv
  obtain ⟨h1, h2⟩ := first_type hF ht
  have hB : ty = B := by
    by_cases hc : k = EVAL_CONS
    · have := TypeResult.det h1 (hx hc)
      simpa using this
    · exact H.list_type h1 (list_arg q1 hc rfl he)
  subst hB
  have g1 : ∀ l, (f :: c :: rest)[1]? = some l → TypeResult env l (some ty) := by
    intro l hl
    simp only [List.getElem?_cons_succ, List.getElem?_cons_zero, Option.some.injEq] at hl
    exact hl ▸ h1
  refine ⟨?_, rfl⟩
  rcases hk with rfl | rfl | rfl
  · refine evalListOp_cons H.closed g1 ?_ he
    intro l hl
    have hm : l ∈ rest := by
      simp only [List.getElem?_cons_succ] at hl
      exact List.mem_of_getElem? hl
    obtain ⟨t, h3⟩ := h2 l hm
    refine (H.list_type h3 ?_) ▸ h3
    simp only [evalListOp, Res.bind_val] at he
    obtain ⟨ret, e1, he⟩ := he
    have := argAt_get e1
    rw [hl] at this
    cases this
    split at he
    · rename_i hr; simpa [isNAryList] using hr
    · cases he
  · exact evalListOp_nth H.closed g1 he
  · rcases evalListOp_singleton H.closed g1 he with h | h <;> exact h

/-! ### Operators whose type has a parameter -/

theorem param_sub {T q : Term} (hT : IsParam T) : Sub q T ↔ q = T := by
  constructor
  · intro h
    rcases h.inv with rfl | ⟨c, hc, _⟩
    · rfl
    · rw [hT.2] at hc; simp at hc
  · rintro rfl; exact .refl _

/-- typing of `((f x) y)` when `f` is declared `(-> T T T)` for a parameter `T` -/
theorem poly_app2 {env : Env} {f T x y B : Term} (hf : TypeResult env f (some (fnType T (fnType T T)))) (hT : IsParam T) (hB : ReducedType B)
    (hx : TypeResult env x (some B)) (hy : TypeResult env y (some B)) : TypeResult env (bin f x y) (some B) := by
  have hk : T.kind ≠ QUOTE_TYPE := by rw [hT.1]; decide
  have hpat : argPattern T = T := argPattern_plain hk
  have hfind : Ctx.find [(T, B)] T = some B := by simp [find_cons]
  have hsub : subst (ctxSub [(T, B)]) T = B := by
    have : T.children = [] := hT.2
    cases T with
    | sym k i =>
      have h0 : k = PARAM := hT.1
      subst h0
      simp [subst, ctxSub, hfind]
    | lit l => have := hT.1; simp only [Term.kind] at this; cases l <;> simp [Lit.kind] at this
    | node k cs =>
      simp only [Term.children] at this
      subst this
      have := hT.1
      simp only [Term.kind] at this
      subst this
      simp [subst, ctxSub, hfind]
  have hev : Eval (OpResult env) (ProgResult env) [(T, B)] T B := .bound _ _ _ hT hfind
  have h1 : TypeResult env (.node APPLY [f, x]) (some (fnType B B)) := by
    refine C45_complete (doms := [T]) (ctx := [(T, B)]) (.inl rfl) hf rfl ?_ ?_ ?_ ?_ (fun _ => value_fnType.2 ⟨hB.1, hB.1⟩)
    · intro p
      simp only [find_cons, List.mem_cons, List.not_mem_nil, or_false, exists_eq_left, hpat, param_sub hT]
      constructor
      · rintro ⟨v, hv⟩
        split at hv
        · rename_i h; subst h; exact ⟨hT, rfl⟩
        · simp [Ctx.find] at hv
      · rintro ⟨_, rfl⟩; exact ⟨B, by simp⟩
    · intro i d t hd ht
      cases i with
      | zero =>
        simp only [List.getElem?_cons_zero, Option.some.injEq] at hd ht
        subst hd ht
        exact .plain _ _ hk (by rwa [hsub])
      | succ i => simp at hd
    · rw [evaluatesTo_iff]
      exact .other _ _ _ _ rfl (by decide) (by decide) (by simp) (.cons _ _ _ _ _ hev (.cons _ _ _ _ _ hev (.nil _)))
    · intro d hd s hs
      simp only [List.mem_singleton] at hd
      subst hd
      rw [hpat, param_sub hT] at hs
      subst hs
      simp [IsAny, hT.1]
  exact (fnType_app h1 hB hB.1).2 ⟨rfl, hy, rfl⟩

/-- the lists of elements of type `B` are closed under building and taking apart lists -/
theorem listOf_closed {f nil : Term} {left : Bool} {E : Term → Prop} (hna : NotApp f nil) : ListClosed f nil left E (ListOf f nil left E) := by
  refine ⟨.nil, fun x l hx hl => .cons x l hx hl, ?_⟩
  intro a b r1 r2 h
  generalize he : Term.node APPLY (.node APPLY (f :: a :: r1) :: b :: r2) = t at h
  cases h with
  | nil => exact absurd he.symm (hna _ _ _ _)
  | cons x l hx hl =>
    cases left with
    | true =>
      simp only [if_true, bin, Term.node.injEq, List.cons.injEq, true_and] at he
      obtain ⟨⟨rfl, -⟩, rfl, -⟩ := he
      exact ⟨hl, hx⟩
    | false =>
      simp only [Bool.false_eq_true, if_false, bin, Term.node.injEq, List.cons.injEq, true_and] at he
      obtain ⟨⟨rfl, -⟩, rfl, -⟩ := he
      exact ⟨hx, hl⟩

/-- a list of elements of type `B` of an operator declared `(-> T T T)` has type `B` -/
theorem listOf_type {env : Env} {f nil T B l : Term} {left : Bool} (hf : TypeResult env f (some (fnType T (fnType T T)))) (hT : IsParam T) (hB : ReducedType B)
    (hn : TypeResult env nil (some B)) (h : ListOf f nil left (fun t => TypeResult env t (some B)) l) : TypeResult env l (some B) := by
  induction h with
  | nil => exact hn
  | cons x l hx _ ih =>
    cases left with
    | true => exact poly_app2 hf hT hB ih hx
    | false => exact poly_app2 hf hT hB hx ih

/-- **C55** for the list operators and an operator `f` declared with the type `(-> T T T)` for a parameter `T`, whose terminator may
depend on `T`.  If the lists among the arguments are lists of elements of type `B`, ended by a terminator of type `B`, the
application and its value have type `B`. -/
theorem C55_poly_partial {env : Env} {k : Kind} {f ct nil v ty c T B : Term} {rest : List Term} {a : Attr} {left : Bool} (hk : FirstType k)
    (hp : f.kind ≠ PARAMETERIZED) (hd : Declared env f a ct) (ha : NilAttr a left) (hn : NilFor env f c ct nil) (hna : NotApp f nil)
    (hf : TypeResult env f (some (fnType T (fnType T T)))) (hT : IsParam T) (hB : ReducedType B) (hnil : TypeResult env nil (some B))
    (h1 : if k = EVAL_CONS then TypeResult env c (some B) else ListOf f nil left (fun t => TypeResult env t (some B)) c)
    (h2 : k = EVAL_CONS ∨ k = EVAL_LIST_CONCAT → ∀ l, rest[0]? = some l → ListOf f nil left (fun t => TypeResult env t (some B)) l)
    (ht : TypeResult env (.node k (f :: c :: rest)) (some ty))
    (hv : OpResult env k (f :: c :: rest) (some v)) : TypeResult env v (some ty) ∧ ty = B := by
  obtain ⟨q1, q2, _⟩ := firstType_list hk
  have he := list_declared q1 q2 (.plain hp) hd ha hn hv
  obtain ⟨h3, -⟩ := first_type hk ht
  have hC := listOf_closed (left := left) (E := fun t => TypeResult env t (some B)) hna
  have hL := fun l h => listOf_type (l := l) (left := left) hf hT hB hnil h
  have hc : TypeResult env c (some B) := by
    split at h1
    · exact h1
    · exact hL _ h1
  have hty : ty = B := by simpa using TypeResult.det h3 hc
  refine ⟨hty ▸ ?_, hty⟩
  subst hty
  have g1 : k ≠ EVAL_CONS → ∀ l, (f :: c :: rest)[1]? = some l → ListOf f nil left (fun t => TypeResult env t (some ty)) l := by
    intro hne l hl
    simp only [List.getElem?_cons_succ, List.getElem?_cons_zero, Option.some.injEq] at hl
    rw [if_neg hne] at h1
    exact hl ▸ h1
  have g2 : k = EVAL_CONS ∨ k = EVAL_LIST_CONCAT → ∀ l, (f :: c :: rest)[2]? = some l → ListOf f nil left (fun t => TypeResult env t (some ty)) l := by
    intro h l hl
    exact h2 h l (by simpa using hl)
  rcases hk with hk | rfl | rfl | rfl
  · have hne : k ≠ EVAL_CONS := by rintro rfl; simp [ListToList] at hk
    exact hL _ (evalListOp_closed hC hk (g1 hne) (fun h => g2 (.inr h)) he)
  · refine hL _ (evalListOp_cons hC ?_ (g2 (.inl rfl)) he)
    intro x hx
    simp only [List.getElem?_cons_succ, List.getElem?_cons_zero, Option.some.injEq] at hx
    exact hx ▸ hc
  · exact evalListOp_nth hC (g1 (by decide)) he
  · rcases evalListOp_singleton hC (g1 (by decide)) he with h | h
    · exact h
    · exact hL _ h

/-! ### Numbers -/

theorem number_lit {k : Kind} {f nil v : Term} {left : Bool} {args : List Term} (hk : k = EVAL_LIST_LENGTH ∨ k = EVAL_LIST_FIND)
    (h : evalListOp k f nil left args = .val v) : ∃ z, v = .lit (.num z) := by
  rcases hk with rfl | rfl
  · simp only [evalListOp, Res.bind_val] at h
    obtain ⟨l, _, h⟩ := h
    split at h
    · cases h
    · cases h; exact ⟨_, rfl⟩
  · simp only [evalListOp, Res.bind_val] at h
    obtain ⟨l, _, h⟩ := h
    split at h
    · cases h
    · simp only [Res.bind_val] at h
      obtain ⟨x, _, h⟩ := h
      split at h <;> · cases h; exact ⟨_, rfl⟩

/-- **C55** for `eo::list_len` and `eo::list_find`: if the numerals have a closed type rule, the value has the type of the application. -/
theorem C55_number_partial {env : Env} {k : Kind} {args : List Term} {v ty tp : Term} (hk : k = EVAL_LIST_LENGTH ∨ k = EVAL_LIST_FIND)
    (hr : env.litRule NUMERAL = some tp) (hc : Closed tp) (ht : TypeResult env (.node k args) (some ty))
    (hv : OpResult env k args (some v)) : TypeResult env v (some ty) ∧ ty = tp := by
  obtain ⟨n, a0, op, ai, a1, nl, _, _, _, _, _, _, he⟩ := list_result (by rcases hk with rfl | rfl <;> rfl) (by rcases hk with rfl | rfl <;> decide) hv
  obtain ⟨z, rfl⟩ := number_lit hk he
  obtain ⟨n, cts, h3, h4, h5⟩ := op_type (by rcases hk with rfl | rfl <;> rfl) ht
  have h6 : litType env (ops env n) NUMERAL none = .ok (some ty) := by
    rcases hk with rfl | rfl <;>
    · simp only [litOpType] at h4
      split at h4
      · simp at h4
      · exact h4
  have hgr := (closed_iff tp).mp hc
  rw [litType, hr] at h6
  simp [hgr] at h6
  subst h6
  have hval : IsValue tp := by
    rw [value_of_closed hc]
    cases he : tp.evaluatable with
    | false => rfl
    | true => exact absurd ⟨hgr, he⟩ h5
  exact ⟨lit_type (by simp [Lit.kind]) hr hc hval, rfl⟩

/-! ### Refutations and examples -/

/-- lists of type `L` with elements of type `U`, an operator `h : (-> U L U)` whose applications can not be nested, and Boolean lists -/
def ltCmds : List Cmd := [
  .declareSort (nm "U") 0,
  .declareSort (nm "L") 0,
  .declareConst (nm "a") (sy "U") [],
  .declareConst (nm "b") (sy "U") [],
  .declareConst (nm "nl") (sy "L") [],
  .declareConst (nm "push") (ap "->" [sy "U", sy "L", sy "L"]) [⟨.RIGHT_ASSOC_NIL, some (sy "nl"), none⟩],
  .declareConst (nm "h") (ap "->" [sy "U", sy "L", sy "U"]) [⟨.RIGHT_ASSOC_NIL, some (sy "nl"), none⟩],
  .declareConst (nm "or") (ap "->" [.bool, .bool, .bool]) [⟨.RIGHT_ASSOC_NIL, some (sy "false"), none⟩] ]

def lU : Term := .sym CONST 10
def lL : Term := .sym CONST 11
def lA : Term := .sym CONST 12
def lB : Term := .sym CONST 13
def lNil : Term := .sym CONST 14
def lPush : Term := .sym CONST 15
def lH : Term := .sym CONST 16
def lOr : Term := .sym CONST 17

def typeAt (t : Term) (st : State) : Out (Option Term) := (ops (st.env exB) 20).getType t
def opAt (k : Kind) (args : List Term) (st : State) : Out (Option Term) := (ops (st.env exB) 20).evalOp k args

/-- the application of `k` to `args` has the type `ty` and the value `v`, whose type is `ty'` -/
def ltCheck (k : Kind) (args : List Term) (v ty : Term) (ty' : Option Term) : Run Bool :=
  (exRun ltCmds).bind fun st => .ok (decide (typeAt (.node k args) st = .ok (some ty)) && decide (opAt k args st = .ok (some v)) &&
    decide (typeAt v st = .ok ty'))

theorem lt_met {k : Kind} {args : List Term} {v ty : Term} {ty' : Option Term} (h : ltCheck k args v ty ty' = .ok true) :
    ∃ st, exRun ltCmds = .ok st ∧ TypeResult (st.env exB) (.node k args) (some ty) ∧ OpResult (st.env exB) k args (some v) ∧ TypeResult (st.env exB) v ty' := by
  simp only [ltCheck, Run.bind_ok, Run.ok.injEq, Bool.and_eq_true, decide_eq_true_eq] at h
  obtain ⟨st, h1, ⟨h2, h3⟩, h4⟩ := h
  exact ⟨st, h1, ⟨_, h2⟩, ⟨_, h3⟩, ⟨_, h4⟩⟩

/-- **C55** is false for lists whose elements have another type than the lists, for new elements of another type, and for operators
whose applications do not have the type of their last argument: after these commands `(eo::list_nth push (push a nl) 0)` has type `L`
and value `a`, `(eo::list_singleton_elim push (push a nl))` too, `(eo::cons push a nl)` has type `U` and value `(push a nl)`, and
`(eo::list_concat h (h a nl) (h b nl))` has type `U` and the value `(h a (h b nl))`, which has no type. -/
theorem C55_list_refuted : ∃ st, exRun ltCmds = .ok st ∧ ∀ k ∈ [EVAL_LIST_NTH, EVAL_LIST_SINGLETON_ELIM, EVAL_CONS, EVAL_LIST_CONCAT],
    ∃ args v ty, TypeResult (st.env exB) (.node k args) (some ty) ∧ OpResult (st.env exB) k args (some v) ∧ ¬ TypeResult (st.env exB) v (some ty) := by
  obtain ⟨st, h0, h1⟩ := lt_met (k := EVAL_LIST_NTH) (args := [lPush, bin lPush lA lNil, .lit (.num 0)]) (v := lA) (ty := lL) (ty' := some lU) (by decide +kernel)
  refine ⟨st, h0, ?_⟩
  have use : ∀ {k : Kind} {args : List Term} {v ty : Term} {ty' : Option Term}, ltCheck k args v ty ty' = .ok true → ty' ≠ some ty →
      ∃ args v ty, TypeResult (st.env exB) (.node k args) (some ty) ∧ OpResult (st.env exB) k args (some v) ∧ ¬ TypeResult (st.env exB) v (some ty) := by
    intro k args v ty ty' h hne
    obtain ⟨st', g0, g1, g2, g3⟩ := lt_met h
    have := Run.ok.inj (h0.symm.trans g0)
    subst this
    exact ⟨args, v, ty, g1, g2, fun h => hne (TypeResult.det g3 h)⟩
  intro k hk
  simp only [List.mem_cons, List.not_mem_nil, or_false] at hk
  rcases hk with rfl | rfl | rfl | rfl
  · exact use (args := [lPush, bin lPush lA lNil, .lit (.num 0)]) (v := lA) (ty := lL) (ty' := some lU) (by decide +kernel) (by decide)
  · exact use (args := [lPush, bin lPush lA lNil]) (v := lA) (ty := lL) (ty' := some lU) (by decide +kernel) (by decide)
  · exact use (args := [lPush, lA, lNil]) (v := bin lPush lA lNil) (ty := lU) (ty' := some lL) (by decide +kernel) (by decide)
  · exact use (args := [lH, bin lH lA lNil, bin lH lB lNil]) (v := bin lH lA (bin lH lB lNil)) (ty := lU) (ty' := none) (by decide +kernel) (by decide)

theorem plain_sym {k : Kind} {i : Nat} (h : (Term.sym k i).ground = true ∧ (Term.sym k i).evaluatable = false) (hk : k ≠ QUOTE_TYPE) : ReducedType (.sym k i) :=
  ⟨(isValue_iff _).2 h, hk⟩

/-- the hypotheses of `C55_list_partial` are met: `(eo::list_rev push (push a (push b nl)))` -/
example : ∃ st, exRun ltCmds = .ok st ∧ Declared (st.env exB) lPush .RIGHT_ASSOC_NIL lNil ∧ ListOperator (st.env exB) lPush lNil false lU lL ∧
    TypeResult (st.env exB) (.node EVAL_LIST_REV [lPush, bin lPush lA (bin lPush lB lNil)]) (some lL) ∧
    OpResult (st.env exB) EVAL_LIST_REV [lPush, bin lPush lA (bin lPush lB lNil)] (some (bin lPush lB (bin lPush lA lNil))) := by
  have h : (exRun ltCmds).bind (fun st => .ok (decide (typeAt lPush st = .ok (some (fnType lU (fnType lL lL)))) && decide (typeAt lNil st = .ok (some lL)) &&
      decide (((st.env exB).appInfo lPush).map (fun ai => (ai.attr, ai.cons)) = some (.RIGHT_ASSOC_NIL, some lNil)))) = .ok true := by decide +kernel
  simp only [Run.bind_ok, Run.ok.injEq, Bool.and_eq_true, decide_eq_true_eq] at h
  obtain ⟨st, h1, ⟨h2, h3⟩, h4⟩ := h
  obtain ⟨st', g1, g2, g3, -⟩ := lt_met (k := EVAL_LIST_REV) (args := [lPush, bin lPush lA (bin lPush lB lNil)]) (v := bin lPush lB (bin lPush lA lNil)) (ty := lL) (ty' := some lL)
    (by decide +kernel)
  have := Run.ok.inj (h1.symm.trans g1)
  subst this
  refine ⟨st, h1, ?_, ⟨⟨_, h2⟩, plain_sym (by decide) (by decide), plain_sym (by decide) (by decide), ⟨_, h3⟩⟩, g2, g3⟩
  cases hai : (st.env exB).appInfo lPush with
  | none => rw [hai] at h4; simp at h4
  | some ai =>
    rw [hai] at h4
    obtain ⟨x1, x2, x3, x4⟩ := ai
    simp only [Option.map_some, Option.some.injEq, Prod.mk.injEq] at h4
    obtain ⟨rfl, rfl⟩ := h4
    exact ⟨x3, x4, hai⟩

/-- the hypotheses of `C55_element_partial` are met: `(eo::list_nth or (or true false) 0)` -/
example : ∃ st, exRun ltCmds = .ok st ∧ ListOperator (st.env exB) lOr (.lit (.bool false)) false tBool tBool ∧
    TypeResult (st.env exB) (.node EVAL_LIST_NTH [lOr, bin lOr (.lit (.bool true)) (.lit (.bool false)), .lit (.num 0)]) (some tBool) ∧
    OpResult (st.env exB) EVAL_LIST_NTH [lOr, bin lOr (.lit (.bool true)) (.lit (.bool false)), .lit (.num 0)] (some (.lit (.bool true))) := by
  have h : (exRun ltCmds).bind (fun st => .ok (decide (typeAt lOr st = .ok (some (fnType tBool (fnType tBool tBool)))))) = .ok true := by decide +kernel
  simp only [Run.bind_ok, Run.ok.injEq, decide_eq_true_eq] at h
  obtain ⟨st, h1, h2⟩ := h
  obtain ⟨st', g1, g2, g3, -⟩ := lt_met (k := EVAL_LIST_NTH) (args := [lOr, bin lOr (.lit (.bool true)) (.lit (.bool false)), .lit (.num 0)]) (v := .lit (.bool true)) (ty := tBool)
    (ty' := some tBool) (by decide +kernel)
  have := Run.ok.inj (h1.symm.trans g1)
  subst this
  have hb : ReducedType tBool := ⟨(isValue_iff _).2 (by decide), by decide⟩
  exact ⟨st, h1, ⟨⟨_, h2⟩, hb, hb, ⟨1, rfl⟩⟩, g2, g3⟩

/-- an operator `cat : (-> T T T)` whose terminator is `(empty T)`, of type `T` -/
def ltPolyEnv : Env := { exTyEnv with
  symType := fun t => if t = fCat then some (fnType tyP (fnType tyP tyP))
    else if t = tyP then some tType
    else if t = tEmpty then some (fnType (.node QUOTE_TYPE [tyP]) tyP) else exTyEnv.symType t
  appInfo := fun t => if t = fCat then some ⟨.RIGHT_ASSOC_NIL, some catNil, NONE, none⟩ else none }

/-- the hypotheses of `C55_poly_partial` are met: `(eo::list_rev cat (cat a (cat b (empty Int))))` -/
example : let nil := Term.node APPLY [tEmpty, tyInt]
    let l := bin fCat cA (bin fCat cA nil)
    Declared ltPolyEnv fCat .RIGHT_ASSOC_NIL catNil ∧ NilFor ltPolyEnv fCat l catNil nil ∧ NotApp fCat nil ∧
      TypeResult ltPolyEnv fCat (some (fnType tyP (fnType tyP tyP))) ∧ TypeResult ltPolyEnv nil (some tyInt) ∧
      ListOf fCat nil false (fun t => TypeResult ltPolyEnv t (some tyInt)) l ∧
      TypeResult ltPolyEnv (.node EVAL_LIST_REV [fCat, l]) (some tyInt) ∧ OpResult ltPolyEnv EVAL_LIST_REV [fCat, l] (some l) := by
  refine ⟨⟨NONE, none, rfl⟩, ?_, ?_, ⟨1, rfl⟩, ⟨10, rfl⟩, ?_, ⟨20, rfl⟩, ⟨20, rfl⟩⟩
  · refine .infer _ _ [] [(tyP, tyInt)] FUNCTION_TYPE tyP (fnType tyP tyP) (fnType tyInt tyInt) _
      (.inl rfl) ⟨1, rfl⟩ (.plain _ _ (by decide) ⟨20, rfl⟩) ?_ ⟨20, rfl⟩ ?_ ?_ ⟨20, rfl⟩
    · intro p
      have hT : IsParam tyP := ⟨rfl, rfl⟩
      simp only [find_cons, List.mem_cons, List.not_mem_nil, or_false, exists_eq_left, show argPattern tyP = tyP from rfl, param_sub hT]
      constructor
      · rintro ⟨v, hv⟩
        split at hv
        · rename_i h; subst h; exact ⟨hT, rfl⟩
        · simp [Ctx.find] at hv
      · rintro ⟨_, rfl⟩; exact ⟨tyInt, by simp⟩
    · intro s hs
      rw [show argPattern tyP = tyP from rfl, param_sub ⟨rfl, rfl⟩] at hs
      subst hs
      simp [IsAny, tyP, Term.kind]
    · intro p hp
      simp only [Term.children, List.mem_cons, List.not_mem_nil, or_false] at hp
      subst hp
      exact ⟨tyInt, by rfl, (ground_iff tyInt).mp rfl⟩
  · intro x y r1 r2 h; simp [tEmpty] at h
  · exact .cons _ _ ⟨1, rfl⟩ (.cons _ _ ⟨1, rfl⟩ .nil)

/-- `or : (-> Bool Bool Bool)` and numerals of type `Int` -/
def ltNumEnv : Env := { exOpEnv with
  symType := fun t => if t = fOr then some (fnType tBool (fnType tBool tBool)) else exOpEnv.symType t
  litRule := fun _ => some tyInt }

/-- the hypotheses of `C55_number_partial` are met: `(eo::list_len or (or true false))` -/
example : ltNumEnv.litRule NUMERAL = some tyInt ∧ Closed tyInt ∧
    TypeResult ltNumEnv (.node EVAL_LIST_LENGTH [fOr, bin fOr (.lit (.bool true)) tNil]) (some tyInt) ∧
    OpResult ltNumEnv EVAL_LIST_LENGTH [fOr, bin fOr (.lit (.bool true)) tNil] (some (.lit (.num 1))) :=
  ⟨rfl, (closed_iff _).mpr rfl, ⟨20, rfl⟩, ⟨20, rfl⟩⟩

end Ethos.Props
