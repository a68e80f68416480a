import Verif.Spec.Param
import Verif.Lemmas.SelfFree
import Verif.Props.Checked
import Verif.Props.Programs
import Verif.Lemmas.SymTypes
/-
C74: the type of a constant declared with parameters.
-/
namespace Ethos.Props
open Ethos Kind Spec

variable {b : Env} {n n0 : Nat} {es : List Event} {st st' : State}

/-! ### The parameters -/

theorem sub_arrow {p : Term} (hp : IsParam p) {a q : Term} : Sub p (.node FUNCTION_TYPE [a, q]) ↔ Sub p a ∨ Sub p q := by
  constructor
  · intro h
    cases h with
    | refl => cases hp.1
    | child _ _ _ hc hs =>
      simp only [List.mem_cons, List.not_mem_nil, or_false] at hc
      rcases hc with rfl | rfl
      · exact .inl hs
      · exact .inr hs
  · rintro (h | h)
    · exact .child _ _ _ _ (by simp) h
    · exact .child _ _ _ _ (by simp) h

theorem sub_arrows {p : Term} (hp : IsParam p) {r : Term} : ∀ {args : List Term}, Sub p (mkFunctionType args r) ↔ Sub p r ∨ ∃ a ∈ args, Sub p a
  | [] => by simp [mkFunctionType]
  | a :: args => by
    have : mkFunctionType (a :: args) r = .node FUNCTION_TYPE [a, mkFunctionType args r] := rfl
    rw [this, sub_arrow hp, sub_arrows hp (args := args)]
    constructor
    · rintro (h | h | ⟨x, hx, h⟩)
      · exact .inr ⟨a, by simp, h⟩
      · exact .inl h
      · exact .inr ⟨x, by simp [hx], h⟩
    · rintro (h | ⟨x, hx, h⟩)
      · exact .inr (.inl h)
      · rcases List.mem_cons.1 hx with rfl | hx
        · exact .inl h
        · exact .inr (.inr ⟨x, hx, h⟩)

theorem dependent_succ {ty : Term → Option Term} {q : Term × SParam} {l : List (Term × SParam)} {ret p : Term} {i : Nat} :
    Dependent ty (q :: l) ret (i+1) p ↔ Dependent ty l ret i p := by
  constructor
  · rintro (h | ⟨j, r, t, hj, h1, h2⟩)
    · exact .inl h
    · cases j with
      | zero => omega
      | succ j => exact .inr ⟨j, r, t, by omega, by simpa using h1, h2⟩
  · rintro (h | ⟨j, r, t, hj, h1, h2⟩)
    · exact .inl h
    · exact .inr ⟨j+1, r, t, by omega, by simpa using h1, h2⟩

/-- a parameter that occurs in the type of the arguments after it -/
theorem _root_.Ethos.Spec.Arguments.depends {ty : Term → Option Term} {l : List (Term × SParam)} {ret : Term} {opaqs args : List Term} (H : Arguments ty l ret opaqs args)
    {p : Term} (hp : IsParam p) (hd : ∀ q ∈ l, q.1 ≠ p ∧ IsParam q.1) (v : SParam) :
    Sub p (mkFunctionType args ret) ↔ Dependent ty ((p, v) :: l) ret 0 p := by
  rw [sub_arrows hp]
  have key : ∀ i q, l[i]? = some q → q.2.opq = false → ∃ a, args[i - opaqs.length]? = some a ∧ opaqs.length ≤ i ∧
      (Sub p a ↔ ∃ t, ty q.1 = some t ∧ Sub p t) := by
    intro i q hq ho
    have hi : opaqs.length ≤ i := by
      have := H.first i q hq
      rw [ho] at this
      simp only [Bool.false_eq_true, false_iff] at this
      omega
    by_cases hdep : Dependent ty l ret i q.1
    · obtain ⟨h1, t, h2, h3⟩ := H.quoted i q hq hdep
      rw [List.getElem?_append_right hi] at h1
      refine ⟨_, h1, hi, ?_⟩
      constructor
      · intro hs
        cases hs with
        | refl => cases hp.1
        | child _ _ _ hc hs =>
          rw [List.mem_singleton] at hc
          subst hc
          have hq' := hd q (List.mem_of_getElem? hq)
          have : q.1 = p := by
            cases hqq : q.1 with
            | sym k i => rw [hqq] at hs; cases hs; rfl
            | lit l => rw [hqq] at hs; cases hs; rfl
            | node k cs =>
              rw [hqq] at hs hq'
              have := hq'.2.2
              simp only [Term.children] at this
              subst this
              cases hs with
              | refl => rfl
              | child _ _ _ hc _ => cases hc
          exact absurd this hq'.1
      · rintro ⟨t', h4, h5⟩
        rw [h2] at h4
        cases h4
        exact absurd hp (h3 _ h5)
    · obtain ⟨t, h1, h2⟩ := H.plain i q hq hdep
      rw [List.getElem?_append_right hi] at h2
      refine ⟨t, h2, hi, ?_⟩
      rw [h1]
      simp
  constructor
  · rintro (h | ⟨a, ha, hs⟩)
    · exact .inl h
    · obtain ⟨k, hk⟩ := List.mem_iff_getElem?.1 ha
      have hlt : k < args.length := (List.getElem?_eq_some_iff.1 hk).1
      have hl : opaqs.length + k < l.length := by rw [H.length]; omega
      have hq := List.getElem?_eq_getElem hl
      have ho : l[opaqs.length + k].2.opq = false := by
        have := H.first _ _ hq
        cases h : l[opaqs.length + k].2.opq with
        | false => rfl
        | true => have := this.1 h; omega
      obtain ⟨a', h1, _, h2⟩ := key _ _ hq ho
      rw [Nat.add_sub_cancel_left] at h1
      rw [hk] at h1
      cases h1
      obtain ⟨t, h3, h4⟩ := h2.1 hs
      exact .inr ⟨opaqs.length + k + 1, _, t, by omega, by rw [List.getElem?_cons_succ]; exact hq, ho, h3, h4⟩
  · rintro (h | ⟨j, q, t, hj, h1, ho, h2, h3⟩)
    · exact .inl h
    · cases j with
      | zero => omega
      | succ j =>
        rw [List.getElem?_cons_succ] at h1
        obtain ⟨a, g1, _, g2⟩ := key j q h1 ho
        exact .inr ⟨a, List.mem_of_getElem? g1, g2.2 ⟨t, h2, h3⟩⟩

theorem _root_.Ethos.Spec.Arguments.cons {ty : Term → Option Term} {l : List (Term × SParam)} {ret : Term} {opaqs args opaqs' args' : List Term} (H : Arguments ty l ret opaqs args)
    {q : Term × SParam} {u t : Term} (ht : ty q.1 = some t) (hl : opaqs' ++ args' = u :: (opaqs ++ args))
    (ho : q.2.opq = true ∧ opaqs' = u :: opaqs ∧ args' = args ∨ q.2.opq = false ∧ opaqs = [] ∧ opaqs' = [] ∧ args' = u :: args)
    (hd : Dependent ty (q :: l) ret 0 q.1 → u = .node QUOTE_TYPE [q.1] ∧ NoParam t) (hn : ¬ Dependent ty (q :: l) ret 0 q.1 → u = t) :
    Arguments ty (q :: l) ret opaqs' args' where
  first := by
    intro i p hp
    cases i with
    | zero =>
      simp only [List.getElem?_cons_zero, Option.some.injEq] at hp
      subst hp
      rcases ho with ⟨h1, h2, _⟩ | ⟨h1, _, h2, _⟩
      · simp [h1, h2]
      · simp [h1, h2]
    | succ i =>
      rw [List.getElem?_cons_succ] at hp
      rw [H.first i p hp]
      rcases ho with ⟨h1, h2, _⟩ | ⟨h1, h3, h2, _⟩
      · simp [h2]
      · simp [h2, h3]
  length := by
    have := congrArg List.length hl
    simp only [List.length_append, List.length_cons] at this
    rw [List.length_cons, H.length, this]
  quoted := by
    intro i p hp h
    rw [hl]
    cases i with
    | zero =>
      simp only [List.getElem?_cons_zero, Option.some.injEq] at hp
      subst hp
      exact ⟨by rw [List.getElem?_cons_zero, (hd h).1], t, ht, (hd h).2⟩
    | succ i =>
      rw [List.getElem?_cons_succ] at hp
      rw [List.getElem?_cons_succ]
      exact H.quoted i p hp (dependent_succ.1 h)
  plain := by
    intro i p hp h
    rw [hl]
    cases i with
    | zero =>
      simp only [List.getElem?_cons_zero, Option.some.injEq] at hp
      subst hp
      exact ⟨t, ht, by rw [List.getElem?_cons_zero, hn h]⟩
    | succ i =>
      rw [List.getElem?_cons_succ] at hp
      rw [List.getElem?_cons_succ]
      exact H.plain i p hp fun h' => h (dependent_succ.2 h')

/-- the loop over the parameters -/
theorem paramTypes_args {b : Env} {n0 m : Nat} (hb : BaseOk b n0) (H : Fresh b n0 m st) {ret : Term} : ∀ (l suf : List (Term × SParam)) {opaqs args : List Term} {r : Term × List Term},
    (∀ q ∈ l ++ suf, (∃ i, q.1 = .sym PARAM i) ∧ Old b m q.1) → ((l.reverse ++ suf).map (·.1)).Nodup → Arguments st.symType suf ret opaqs args →
    Old b m (mkFunctionType args ret) → paramTypes b n st l (mkFunctionType args ret) opaqs = .ok r →
    ∃ args', r.1 = mkFunctionType args' ret ∧ Arguments st.symType (l.reverse ++ suf) ret r.2 args'
  | [], suf, opaqs, args, r, _, _, hA, _, h => by
    simp only [paramTypes] at h
    cases h
    exact ⟨args, rfl, by simpa using hA⟩
  | (p, v) :: l, suf, opaqs, args, r, hq, hnd, hA, hold, h => by
    have W := freshWorld hb
    simp only [paramTypes, Run.bind_ok] at h
    obtain ⟨pt, h1, h⟩ := h
    obtain ⟨⟨i, hi⟩, hpo⟩ := hq (p, v) (by simp)
    dsimp only at hi hpo
    have hsym : st.symType p = some pt := by subst hi; exact typeCheck_sym h1
    have hpp : IsParam p := by subst hi; exact ⟨rfl, rfl⟩
    have hpt : Old b m pt := W.toReadWorld.typeCheck (d := 0) H hpo h1
    have hdist : ∀ q ∈ suf, q.1 ≠ p ∧ IsParam q.1 := by
      intro q hqs
      obtain ⟨⟨j, hj⟩, _⟩ := hq q (by simp [hqs])
      refine ⟨?_, by rw [hj]; exact ⟨rfl, rfl⟩⟩
      rintro he
      simp only [List.reverse_cons, List.append_assoc, List.map_append, List.map_reverse, List.map_cons, List.map_nil] at hnd
      have := (List.nodup_append.1 hnd).2.1
      simp only [List.singleton_append, List.nodup_cons, List.mem_map, not_exists, not_and] at this
      exact this.1 q hqs he
    have hdep : (hasVariable (mkFunctionType args ret) [p]).getD false = true ↔ Dependent st.symType ((p, v) :: suf) ret 0 p := by
      obtain ⟨c, hc, hiff⟩ := C22_has_variable (mkFunctionType args ret) [p] (Built.leaves (BaseOk.ownSym hb) rfl hold)
      rw [hc, Option.getD_some, hiff, ← hA.depends hpp hdist v]
      constructor
      · rintro ⟨q, hqm, _, hs⟩
        rw [List.mem_singleton] at hqm
        exact hqm ▸ hs
      · exact fun hs => ⟨p, by simp, hpp, hs⟩
    have hnd' : ((l.reverse ++ ((p, v) :: suf)).map (·.1)).Nodup := by simpa using hnd
    have hq' : ∀ q ∈ l ++ ((p, v) :: suf), (∃ i, q.1 = .sym PARAM i) ∧ Old b m q.1 := by
      intro q hm
      refine hq q ?_
      simp only [List.mem_append, List.mem_cons] at hm ⊢
      rcases hm with h | h | h
      · exact .inl (.inr h)
      · exact .inl (.inl h)
      · exact .inr h
    have fin : ∀ {opaqs' args' : List Term}, Arguments st.symType ((p, v) :: suf) ret opaqs' args' → Old b m (mkFunctionType args' ret) →
        paramTypes b n st l (mkFunctionType args' ret) opaqs' = .ok r →
        ∃ args', r.1 = mkFunctionType args' ret ∧ Arguments st.symType (((p, v) :: l).reverse ++ suf) ret r.2 args' := by
      intro opaqs' args' h1 h2 h3
      obtain ⟨a, e1, e2⟩ := paramTypes_args hb H l _ hq' hnd' h1 h2 h3
      exact ⟨a, e1, by simpa using e2⟩
    generalize hquo : (hasVariable (mkFunctionType args ret) [p]).getD false = quo at h hdep
    have G := H.good hb
    split at h
    · cases h
    · rename_i hg
      have hd1 : Dependent st.symType ((p, v) :: suf) ret 0 p → (if quo = true then Term.node QUOTE_TYPE [p] else pt) = .node QUOTE_TYPE [p] ∧ NoParam pt := by
        intro hd
        have := hdep.2 hd
        rw [this] at hg ⊢
        simp only [Bool.true_and, Bool.not_eq_true', Bool.not_eq_false] at hg
        exact ⟨by simp, fun s hs => ((ground_iff _).1 (by simpa using hg) s hs).1⟩
      have hn1 : ¬ Dependent st.symType ((p, v) :: suf) ret 0 p → (if quo = true then Term.node QUOTE_TYPE [p] else pt) = pt := by
        intro hd
        rw [if_neg (fun h => hd (hdep.1 h))]
      have hu : Old b m (if quo = true then Term.node QUOTE_TYPE [p] else pt) := by
        split
        · exact G.node1 (by simp) hpo
        · exact hpt
      split at h
      · rename_i ho
        exact fin (hA.cons (q := (p, v)) (args' := args) hsym (by simp) (.inl ⟨ho, rfl, rfl⟩) hd1 hn1) hold h
      · rename_i ho
        split at h
        · cases h
        · rename_i he
          have he : opaqs = [] := Classical.not_not.1 he
          subst he
          exact fin (hA.cons (q := (p, v)) (args' := _ :: args) hsym (by simp) (.inr ⟨by simpa using ho, rfl, rfl, rfl⟩) hd1 hn1)
            (mkFunctionType_good G (ts := [_]) (by simpa using hu) hold) h

/-- reading attributes makes no symbols -/
theorem paramAttrs_next {rich : Bool} {v : Term} : ∀ (as : List PAttr) {st st' : State}, paramAttrs b n rich v as st = .ok st' →
    st'.next = st.next ∧ st'.symType = st.symType
  | [], st, st', h => by simp only [paramAttrs] at h; cases h; exact ⟨rfl, rfl⟩
  | .list :: as, st, st', h => by simp only [paramAttrs] at h; have := paramAttrs_next as h; exact this
  | .restrict e :: as, st, st', h => by
    simp only [paramAttrs, Run.ite_err', Run.bind_ok] at h
    obtain ⟨_, ⟨s1, t⟩, h1, h2⟩ := h
    have h3 : ScopeOnly st s1 := scopeOnly.parseExpr b n e h1
    have h4 := paramAttrs_next as h2
    rw [h3] at h4
    exact h4
  | .implicit :: as, st, st', h => by simp only [paramAttrs, Run.ite_err'] at h; exact paramAttrs_next as h.2
  | .opq :: as, st, st', h => by simp only [paramAttrs, Run.ite_err'] at h; exact paramAttrs_next as h.2
  | .synt :: as, st, st', h => by simp only [paramAttrs, Run.ite_err'] at h; exact paramAttrs_next as h.2

/-- the parameters are new and different -/
theorem bindParams_new {rich : Bool} : ∀ (vs : List SParam) {st st' : State} {l : List (Term × SParam)}, bindParams b n rich vs st = .ok (st', l) →
    st.next ≤ st'.next ∧ (∀ q ∈ l, ∃ i, q.1 = .sym PARAM i ∧ st.next ≤ i) ∧ (l.map (·.1)).Nodup
  | [], st, st', l, h => by simp only [bindParams] at h; cases h; simp
  | v :: vs, st, st', l, h => by
    simp only [bindParams, Run.bind_ok, Run.map_ok] at h
    obtain ⟨⟨s1, t⟩, h1, s2, h2, ⟨s3, r⟩, h3, h4⟩ := h
    cases h4
    have e1 : ScopeOnly st s1 := scopeOnly.parseType h1
    have hn : s1.next = st.next := by rw [e1]
    have e2 := (paramAttrs_next _ h2).1
    obtain ⟨a1, a2, a3⟩ := bindParams_new vs h3
    have a1 : s2.next ≤ s3.next := a1
    have e3 : s2.next = st.next + 1 := by rw [e2, ← hn]; rfl
    refine ⟨Nat.le_trans (by omega) a1, ?_, ?_⟩
    · intro q hq
      rcases List.mem_cons.1 hq with rfl | hq
      · exact ⟨s1.next, rfl, by omega⟩
      · obtain ⟨i, g1, g2⟩ := a2 q hq
        exact ⟨i, g1, by omega⟩
    · simp only [List.map_cons, List.nodup_cons, List.mem_map, not_exists, not_and]
      refine ⟨?_, a3⟩
      intro q hq he
      obtain ⟨i, g1, g2⟩ := a2 q hq
      rw [g1] at he
      have : i = s1.next := by
        have := he
        simp only [State.mkSymbol] at this
        cases this
        rfl
      omega

/-! ### Results -/

theorem returns_iff {t : Term} {args : List Term} {r : Term} : Returns t args r ↔ functionTypeLoop true t = (args, r) := by
  constructor
  · intro h
    induction h with
    | here r h1 h2 =>
      unfold functionTypeLoop
      split
      · exact absurd rfl (h1 _ _)
      · exact absurd rfl (h2 _ _ _)
      · rfl
    | arrow a q args r _ ih => simp only [functionTypeLoop, ih]
    | requires x y q args r _ ih => simp only [functionTypeLoop, ih]
  · generalize hb : true = c
    fun_induction functionTypeLoop c t generalizing args r with
    | case1 i a q as t heq ih =>
      intro h
      cases h
      exact .arrow _ _ _ _ (ih rfl heq)
    | case2 x y q ih => exact fun h => .requires _ _ _ _ _ (ih rfl h)
    | case3 i t h1 h2 =>
      intro h
      subst hb
      cases h
      exact .here _ (fun a q he => h1 a q he) (fun x y q he => h2 x y q rfl he)

theorem result_iff {t : Term} {args : List Term} {r : Term} : Result t args r ↔ getFunctionType t = (args, r) := by
  simp only [Result, getFunctionType]
  by_cases h : ∃ a q, t = .node FUNCTION_TYPE [a, q]
  · obtain ⟨a, q, rfl⟩ := h
    rw [returns_iff]
    simp [functionTypeLoop]
  · have h' : ∀ a q, t ≠ .node FUNCTION_TYPE [a, q] := fun a q he => h ⟨a, q, he⟩
    have : functionTypeLoop false t = ([], t) := by
      unfold functionTypeLoop
      split
      · exact absurd rfl (h' _ _)
      · contradiction
      · rfl
    rw [this]
    simp only [h, false_and, false_or, Prod.mk.injEq]
    exact ⟨fun ⟨_, h1, h2⟩ => ⟨h1.symm, h2.symm⟩, fun ⟨h1, h2⟩ => ⟨h', h1.symm, h2.symm⟩⟩

/-- what `findFreeVar` finds -/
theorem ambiguous_iff {self : Term} {op : List Term} {t : Term} (h1 : ∀ a ∈ (getFunctionType t).1 ++ op, ParamsAreLeaves a)
    (h2 : ParamsAreLeaves (getFunctionType t).2) (hs : ¬ Sub self (getFunctionType t).2) :
    findFreeVar self (getFunctionType t).2 ((getVariables ((getFunctionType t).1 ++ op)).getD []) = none ↔ ¬ Undetermined op t := by
  obtain ⟨r1, e1, _, m1⟩ := C22_variables ((getFunctionType t).1 ++ op) h1
  obtain ⟨r2, e2, _, m2⟩ := C22_variables [(getFunctionType t).2] (by simpa using h2)
  simp only [findFreeVar, e1, e2, Option.getD_some, List.find?_eq_none, decide_eq_true_eq]
  constructor
  · rintro h ⟨args, r, p, hr, hp, hs1, hs2⟩
    rw [result_iff] at hr
    rw [hr] at m1 m2 hs
    refine h p ((m2 p).2 ⟨hp, r, by simp, hs1⟩) ⟨?_, ?_⟩
    · intro hm
      obtain ⟨_, e, he, hse⟩ := (m1 p).1 hm
      exact hs2 e (by simp only [List.mem_append] at he ⊢; exact he.symm) hse
    · rintro rfl; exact hs hs1
  · rintro h p hp ⟨hn, _⟩
    obtain ⟨hi, e, he, hse⟩ := (m2 p).1 hp
    rw [List.mem_singleton] at he
    subst he
    refine h ⟨_, _, p, result_iff.2 rfl, hi, hse, ?_⟩
    intro a ha hsa
    exact hn ((m1 p).2 ⟨hi, a, by simp only [List.mem_append] at ha ⊢; exact ha.symm, hsa⟩)

/-- an application of a program to a parameter is left as it is -/
theorem build_param {s : State} {p q t c : Term} (hk : p.kind = PROGRAM_CONST) (hq : q.ground = false) {ai : AppInfo} (ha : (s.env b).appInfo p = some ai)
    (h1 : ai.kind = NONE) (h2 : ai.overload = none) (h3 : ai.attr = .PROGRAM) (h4 : ai.cons = some c) (h5 : c.kind = PROGRAM)
    (h : s.build b n APPLY [p, q] = .ok t) : t = .node APPLY [p, q] := by
  simp only [State.build, Run.lift_ok] at h
  cases n with
  | zero => simp [mkExpr] at h
  | succ n =>
    have hc : consTerm (ops (s.env b) (n+1)) ai [p, q] = .ok (some c) := by
      simp [consTerm, h4, h5]
    simp only [mkExpr, mkExprStep, mkApp, if_pos, ha, h1, h2, ne_eq, not_true_eq_false, if_false, Out.bind, hc, mkApplyAttr, h3, isAssocAttr, Bool.false_eq_true,
      mkPlainApp, hk, not_true_eq_false, false_and, reduceCtorEq] at h
    split at h
    · cases hg : (ops (s.env b) (n+1)).getType p with
      | ok r =>
        rw [hg] at h
        cases r with
        | none => cases h
        | some ty =>
          simp only [evalProgram, List.any_cons, hq] at h
          split at h
          · simp at h; exact h.symm
          · simp at h; exact h.symm
      | _ => rw [hg] at h; cases h
    · simp at h; exact h.symm

/-! ### The command -/

/-- the symbols made for an ambiguous constant -/
theorem disambiguated {m : Nat} (hb : BaseOk b n0) (H : Fresh b n0 m st) {dp t : Term} {x : Name} {s : State} {u : Term}
    (h : mkDisambiguatedType b n st dp t x = .ok (s, u)) :
    u = .node FUNCTION_TYPE [.node QUOTE_TYPE [.sym PARAM (st.next + 1)], .node APPLY [.sym PROGRAM_CONST st.next, .sym PARAM (st.next + 1)]] ∧
    s.next = st.next + 2 ∧ s.decls.info (.sym PROGRAM_CONST st.next) =
      some ⟨.PROGRAM, some (.node PROGRAM [.node TUPLE [.node APPLY [.sym PROGRAM_CONST st.next, dp], t]]), NONE, none⟩ := by
  simp only [mkDisambiguatedType, Run.bind_ok, Run.map_ok] at h
  obtain ⟨v1, h1, v2, h2, v3, h3, h4⟩ := h
  have W := freshWorld hb
  obtain ⟨a1, _⟩ := W.sym (d := 0) (k := PROGRAM_CONST) (x := nm "$eo_disamb_type_" ++ x) H (by simp)
    (ty := .node PROGRAM_TYPE [tType, tType]) ((H.good hb).node2 (by simp) (H.good hb).type (H.good hb).type)
  have e1 := build_undefined rfl a1 h1
  have e2 := build_program h2
  subst e1 e2
  have hn : st.decls.info (.sym PROGRAM_CONST st.next) = none ∧ st.scope.mark (.sym PROGRAM_CONST st.next) = none := by
    have a1 : st.decls.appInfo st.scope.mark (.sym PROGRAM_CONST st.next) = none := a1
    simp only [Decls.appInfo] at a1
    cases hi : st.decls.info (.sym PROGRAM_CONST st.next) with
    | none =>
      cases hm : st.scope.mark (.sym PROGRAM_CONST st.next) with
      | none => exact ⟨rfl, rfl⟩
      | some y => simp [hi, hm] at a1
    | some ai => simp [hi] at a1
  have hd : (st.decls.defineProgram (.sym PROGRAM_CONST st.next) (some (.node PROGRAM [.node TUPLE [.node APPLY [.sym PROGRAM_CONST st.next, dp], t]]))).info
      (.sym PROGRAM_CONST st.next) = some ⟨.PROGRAM, some (.node PROGRAM [.node TUPLE [.node APPLY [.sym PROGRAM_CONST st.next, dp], t]]), NONE, none⟩ := by
    simp [Decls.defineProgram, Decls.markConstructorKind, hn.1]
  have e3 := build_param (p := .sym PROGRAM_CONST st.next) (q := .sym PARAM (st.next + 1)) rfl rfl (ai := ⟨.PROGRAM, some (.node PROGRAM [.node TUPLE [.node APPLY [.sym PROGRAM_CONST st.next, dp], t]]), NONE, none⟩) (by
    show Decls.appInfo (st.decls.defineProgram _ _) st.scope.mark _ = _
    simp only [State.mkSymbol, Decls.appInfo]
    rw [hd, hn.2]) rfl rfl rfl rfl rfl h3
  cases h4
  subst e3
  exact ⟨rfl, rfl, hd⟩

theorem declare_info {x : Name} {ty : Term} {ck : Attr} {c : Option Term} {v : State × Term} (h : declare st x ty ck c = .ok v) :
    (ck ≠ .NONE → ∃ ai, v.1.decls.info v.2 = some ai ∧ ai.attr = ck ∧ ai.cons = c) ∧ ∀ t, t ≠ v.2 → v.1.decls.info t = st.decls.info t := by
  simp only [declare] at h
  split at h
  · rename_i hc
    cases h
    exact ⟨fun h => absurd hc h, fun t _ => rfl⟩
  · simp only [Run.ite_err'] at h
    obtain ⟨h1, h2⟩ := h
    cases h2
    simp only [Decls.markConstructorKind] at h1 ⊢
    split at h1
    · cases h1
    · rename_i hn
      rw [if_neg hn]
      refine ⟨fun _ => ⟨_, if_pos rfl, rfl, rfl⟩, fun t ht => if_neg ht⟩

/-- **C74**.  The command `declare-parameterized-const` is accepted only if its explicit parameters are, in order, opaque ones and
others, and those on which the rest of the type depends have closed types.  Then the name stands for a new symbol, and its type
takes an argument for each of them: quoted, if the rest of the type depends on it, and of the type of the parameter otherwise.
If the arguments do not determine the result, its type is computed from an argument that says what the result is. -/
theorem C74_type (hb : BaseOk b n0) (hq : SelfOk b) (hr : replay b n es (State.init b n0) = .ok st) {x : Name} {ps : List SParam} {ret : SExp}
    {as : List SAttr} (h : exec b n st (.declareParam x ps ret as) = .ok st') :
    ∃ s1 vs s2 rt opaqs args i, bindParams b n true ps st.push = .ok (s1, vs) ∧ parseType b n false true ret s1 = .ok (s2, rt) ∧
      Arguments s1.symType (explicit vs) rt opaqs args ∧ st'.scope.get x = some (.sym CONST i) ∧ st.next ≤ i ∧
      (¬ Undetermined opaqs (mkFunctionType args rt) → st'.symType (.sym CONST i) = some (mkFunctionType (opaqs ++ args) rt) ∧
        (opaqs ≠ [] → ∃ ai, st'.decls.info (.sym CONST i) = some ai ∧ ai.attr = .OPAQUE ∧ ai.cons = some (.lit (.num opaqs.length)))) ∧
      (Undetermined opaqs (mkFunctionType args rt) → opaqs = [] ∧ ∃ f q as r ai aj, Result (mkFunctionType args rt) as r ∧ IsParam q ∧
        st'.symType (.sym CONST i) = some (.node FUNCTION_TYPE [.node QUOTE_TYPE [q], .node APPLY [f, q]]) ∧
        st'.decls.info (.sym CONST i) = some ai ∧ ai.attr = .AMB ∧ st'.decls.info f = some aj ∧ aj.attr = .PROGRAM ∧
        aj.cons = some (.node PROGRAM [.node TUPLE [.node APPLY [f, r], mkFunctionType args rt]])) := by
  obtain ⟨m, H⟩ := Clean.replay hb hq hr
  have W := cleanWorld hb hq
  simp only [exec, execDeclareParam, Run.bind_ok, Run.map_ok] at h
  obtain ⟨⟨s1, vs⟩, h1, ⟨s2, rt⟩, h2, ⟨s3, ck, c⟩, h3, tt, h4, ⟨s5, ty, ck'⟩, h5, e, h6, v, h7, s8, h8, rfl⟩ := h
  obtain ⟨m1, l1, i1, p1⟩ := W.bindParams (d := 0) _ (W.push (d := 0) H) h1
  obtain ⟨i2, p2⟩ := W.parseType (d := 0) i1 h2
  obtain ⟨i3, hk, pc⟩ := W.parseAttrs (d := 0) i2 h3
  have hvs : ∀ q ∈ (explicit vs).reverse, q ∈ vs := fun q h => (List.mem_filter.1 (List.mem_reverse.1 h)).1
  obtain ⟨p4, p4'⟩ := W.paramTypes (d := 0) i3 _ _ _ _ (fun q h => p1 q (hvs q h)) p2 (by simp) h4
  obtain ⟨n1, n2, n3⟩ := bindParams_new ps h1
  have es3 : ScopeOnly s1 s3 := scopeOnly.trans (scopeOnly.parseType h2) (scopeOnly.parseAttrs h3)
  have hsy : s3.symType = s1.symType := by rw [es3]
  have hnx : s3.next = s1.next := by rw [es3]
  obtain ⟨args, e1, hA⟩ := paramTypes_args hb i3.fresh (n := n) (ret := rt) (explicit vs).reverse [] (opaqs := []) (args := []) (r := tt)
    (by
      intro q hq
      rw [List.append_nil] at hq
      obtain ⟨i, g1, _⟩ := n2 q (hvs q hq)
      exact ⟨⟨i, g1⟩, (p1 q (hvs q hq)).old⟩)
    (by
      rw [List.append_nil, List.reverse_reverse]
      exact (List.Sublist.map _ List.filter_sublist).nodup n3)
    ⟨by simp, by simp, by simp, by simp⟩ p2.old h4
  rw [List.append_nil, List.reverse_reverse, hsy] at hA
  have G3 := i3.good hb hq
  have gf := functionTypeLoop_good G3 false tt.1 p4
  have hamb := ambiguous_iff (self := b.self) (op := tt.2) (t := tt.1)
    (by
      intro a ha
      rcases List.mem_append.1 ha with ha | ha
      · exact Built.leaves (BaseOk.ownSym hb) rfl (gf.1 a ha).old
      · exact Built.leaves (BaseOk.ownSym hb) rfl (p4' a ha).old)
    (Built.leaves (BaseOk.ownSym hb) rfl gf.2.old) (gf.2.noSelf hb hq)
  obtain ⟨d1, d2, _⟩ := declare_type h7
  obtain ⟨d3, d4⟩ := declare_info h7
  have hpop : s8.symType = v.1.symType ∧ s8.decls = v.1.decls := by
    simp only [State.pop, Run.map_ok] at h8
    obtain ⟨sc, _, rfl⟩ := h8
    exact ⟨rfl, rfl⟩
  have hs5 : s3.next ≤ s5.next := by
    simp only [disambiguate] at h5
    split at h5
    · cases h5; exact Nat.le_refl _
    · simp only [Run.ite_err, Run.map_ok] at h5
      obtain ⟨_, ⟨s6, u⟩, g1, g2⟩ := h5
      cases g2
      have := (disambiguated hb i3.fresh g1).2.1
      show s3.next ≤ s6.next
      omega
  have hns : st.next ≤ s1.next := n1
  refine ⟨s1, vs, s2, rt, tt.2, args, s5.next, h1, h2, hA, by rw [bind_get, d1], by omega, ?_, ?_⟩
  · intro hu
    rw [← e1] at hu
    have hf := hamb.2 hu
    simp only [disambiguate, hf] at h5
    cases h5
    simp only [opaqueType] at h6
    split at h6
    · rename_i ho
      cases h6
      refine ⟨?_, fun h => absurd ho h⟩
      show s8.symType _ = _
      rw [hpop.1, ← d1, d2, e1, ho]
      rfl
    · simp only [Run.ite_err] at h6
      obtain ⟨_, h6⟩ := h6
      cases h6
      obtain ⟨ai, g1, g2, g3⟩ := d3 (by simp)
      refine ⟨?_, fun _ => ⟨ai, ?_, g2, g3⟩⟩
      · show s8.symType _ = _
        rw [hpop.1, ← d1, d2, e1]
        simp [mkFunctionType]
      · show s8.decls.info _ = _
        rw [hpop.2, ← d1, g1]
  · intro hu
    rw [← e1] at hu
    simp only [disambiguate] at h5
    split at h5
    · rename_i hf
      exact absurd hu (hamb.1 hf)
    · simp only [Run.ite_err, Run.map_ok, not_or] at h5
      obtain ⟨⟨_, ho⟩, ⟨s6, u⟩, g1, g2⟩ := h5
      cases g2
      have ho : tt.2 = [] := Classical.not_not.1 ho
      obtain ⟨k1, k2, k3⟩ := disambiguated hb i3.fresh g1
      simp only [opaqueType, ho, if_pos] at h6
      cases h6
      obtain ⟨ai, g3, g4, _⟩ := d3 (by simp)
      refine ⟨ho, .sym PROGRAM_CONST s3.next, .sym PARAM (s3.next + 1), (getFunctionType tt.1).1, (getFunctionType tt.1).2, ai,
        ⟨.PROGRAM, some (.node PROGRAM [.node TUPLE [.node APPLY [.sym PROGRAM_CONST s3.next, (getFunctionType tt.1).2], tt.1]]), NONE, none⟩,
        result_iff.2 (by rw [← e1]), ⟨rfl, rfl⟩, ?_, ?_, g4, ?_, rfl, by rw [← e1]⟩
      · show s8.symType _ = _
        rw [hpop.1, ← d1, d2, k1]
      · show s8.decls.info _ = _
        rw [hpop.2, ← d1, g3]
      · show s8.decls.info _ = _
        rw [hpop.2, d4 _ (by rw [d1]; simp)]
        exact k3

/-! ### Examples -/

/-- a type `U` and types `B` of arguments of type `U` -/
def depCmds : List Cmd := [.declareSort (nm "U") 0, .declareConst (nm "B") (ap "->" [sy "U", .type]) []]

/-- what a parameterized constant gets: its symbol and its type -/
def depType (ps : List SParam) (ret : SExp) : Run (Option Term × Option Term) :=
  ((exRun depCmds).bind fun st => exec exB 10 st (.declareParam (nm "f") ps ret [])).map fun st =>
    (st.scope.get (nm "f"), (st.scope.get (nm "f")).bind st.symType)

/-- `f` with the parameters `n : U` and `x : (B n)` -/
def depParams (a1 a2 : List PAttr) : List SParam := [⟨nm "n", sy "U", a1⟩, ⟨nm "x", ap "B" [sy "n"], a2⟩]

/-- C74: the hypotheses are met by constants `f` that return `(B n)`: with `n` explicit, and with `n` implicit, determined by the
type of `x` -/
example : BaseOk exB 10 ∧ SelfOk exB ∧
    depType (depParams [] []) (ap "B" [sy "n"]) = .ok (some (.sym CONST 14), some (mkFunctionType [.node QUOTE_TYPE [.sym PARAM 12],
      .node APPLY [.sym CONST 11, .sym PARAM 12]] (.node APPLY [.sym CONST 11, .sym PARAM 12]))) ∧
    depType (depParams [.implicit] []) (ap "B" [sy "n"]) = .ok (some (.sym CONST 14), some (mkFunctionType [
      .node APPLY [.sym CONST 11, .sym PARAM 12]] (.node APPLY [.sym CONST 11, .sym PARAM 12]))) :=
  ⟨exB_ok, exB_self, by decide +kernel⟩

/-- C74: `f` with the implicit parameter `n : U` and the argument `x : U`, which does not determine `n`, that returns `(B n)`, and `f`
with an opaque parameter -/
example : depType [⟨nm "n", sy "U", [.implicit]⟩, ⟨nm "x", sy "U", []⟩] (ap "B" [sy "n"]) =
      .ok (some (.sym CONST 16), some (.node FUNCTION_TYPE [.node QUOTE_TYPE [.sym PARAM 15], .node APPLY [.sym PROGRAM_CONST 14, .sym PARAM 15]])) ∧
    depType [⟨nm "n", sy "U", [.opq]⟩, ⟨nm "x", sy "U", []⟩] (ap "B" [sy "n"]) =
      .ok (some (.sym CONST 14), some (mkFunctionType [.node QUOTE_TYPE [.sym PARAM 12], .sym CONST 10] (.node APPLY [.sym CONST 11, .sym PARAM 12]))) := by
  decide +kernel

/-- C74: an opaque parameter after one that is not, and a parameter with a dependent type on which the result depends, are rejected -/
example : depType [⟨nm "n", sy "U", []⟩, ⟨nm "x", sy "U", [.opq]⟩] (ap "B" [sy "n"]) = .err ∧
    depType [⟨nm "T", .type, []⟩, ⟨nm "x", sy "T", []⟩, ⟨nm "C", ap "->" [sy "T", .type], []⟩] (ap "C" [sy "x"]) = .err := by
  decide +kernel

end Ethos.Props
