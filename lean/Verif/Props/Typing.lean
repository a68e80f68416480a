import Verif.Lemmas.Typing
import Verif.Props.Core
/-
C45: typing of applications.  C46: types are reduced.
-/
namespace Ethos.Props
open Ethos Kind Spec

/-- the term has a type -/
def WellTyped (env : Env) (t : Term) : Prop := ∃ ty, TypeResult env t (some ty)

/-- what a successful `getType` on a compound term has done -/
theorem typeResult_node {env : Env} {k : Kind} {cs : List Term} {ty : Term} (h : TypeResult env (.node k cs) (some ty)) :
    ∃ n cts, typesOf (ops env n) cs = .ok (some cts) ∧ typeInternal env (ops env n) (.node k cs) cts = .ok (some ty) ∧
      ¬ (ty.ground = true ∧ ty.evaluatable = true) := by
  obtain ⟨n, hn⟩ := h
  cases n with
  | zero => simp [ops] at hn
  | succ n =>
    simp only [ops, typeStep] at hn
    obtain ⟨cts, h1, h2⟩ := bind_ok hn
    cases cts with
    | none => simp at h2
    | some cts =>
      obtain ⟨r, h3, h4⟩ := map_ok h2
      cases r with
      | none => simp at h4
      | some t =>
        simp only at h4
        split at h4
        · simp at h4
        · rename_i hb
          simp only [Option.some.injEq] at h4
          subst h4
          exact ⟨n, cts, h1, h3, by simpa using hb⟩

/-- **C45**.  An application is given a type only if its head has a function or program type with exactly as many
argument types as there are arguments, one substitution for the parameters of those types makes every
argument fit, and the type is the return type evaluated under that substitution. -/
theorem C45_sound {env : Env} {hd : Term} {args : List Term} {ty : Term}
    (h : TypeResult env (.node APPLY (hd :: args)) (some ty)) : AppTyping env hd args ty := by
  obtain ⟨n, cts, _, h2, _⟩ := typeResult_node h
  simp only [typeInternal, Term.kind, Term.children] at h2
  obtain ⟨⟨t, ctx⟩, h3, h4⟩ := map_ok h2
  simp only at h4
  subst h4
  obtain ⟨k, doms, ret, h⟩ := typeApp_spec h3
  exact ⟨⟨k, doms, ret, ctx, h⟩⟩

/-- an application whose arguments all fit is typed in one run -/
theorem fits_pairs {env : Env} {σ : Term → Term} : ∀ (ds args : List Term), ds.length = args.length →
    (∀ (i : Nat) (d t : Term), ds[i]? = some d → args[i]? = some t → Fits env σ d t) →
    ∃ n prs, appPairs (ops env n) ds args = .ok (prs, true) ∧ (∀ q ∈ prs, subst σ q.1 = q.2) ∧
      prs.map Prod.fst = ds.map argPattern ∧ ∃ cts, typesOf (ops env n) args = .ok (some cts)
  | [], [], _, _ => ⟨0, [], rfl, by simp, rfl, [], rfl⟩
  | [], _ :: _, hl, _ => by simp at hl
  | _ :: _, [], hl, _ => by simp at hl
  | d :: ds, t :: args, hl, h => by
    obtain ⟨n, prs, h1, h2, h3, cts, h4⟩ := fits_pairs ds args (by simpa using hl) (fun i d t hd ht => h (i+1) d t hd ht)
    have h0 := h 0 d t rfl rfl
    cases h0 with
    | plain _ _ hk ht =>
      obtain ⟨m, hm⟩ := ht
      have g1 := ((ops_mono env (Nat.le_max_right n m)).getType t).ok hm
      have g2 := (appPairs_mono (ops_mono env (Nat.le_max_left n m)) ds args).ok h1
      have g3 := (typesOf_mono (ops_mono env (Nat.le_max_left n m)) args).ok h4
      refine ⟨max n m, (d, subst σ d) :: prs, ?_, ?_, ?_, subst σ d :: cts, ?_⟩
      · rw [appPairs, if_neg hk, g1]; simp [Out.bind, g2, Out.map]
      · intro q hq
        rcases List.mem_cons.mp hq with rfl | hq
        · rfl
        · exact h2 q hq
      · simp [h3, argPattern_plain hk]
      · simp [typesOf, g1, Out.bind, g3, Out.map]
    | quote q _ ty r ht hq hs =>
      obtain ⟨m, hm⟩ := ht
      obtain ⟨m', hm'⟩ := hq
      have l1 : n ≤ max n (max m m') := by omega
      have l2 : m ≤ max n (max m m') := by omega
      have l3 : m' ≤ max n (max m m') := by omega
      have g1 := ((ops_mono env l2).getType t).ok hm
      have g1' := ((ops_mono env l3).getType q).ok hm'
      have g2 := (appPairs_mono (ops_mono env l1) ds args).ok h1
      have g3 := (typesOf_mono (ops_mono env l1) args).ok h4
      refine ⟨max n (max m m'), (q, t) :: prs, ?_, ?_, ?_, ty :: cts, ?_⟩
      · rw [appPairs, if_pos (by simp [Term.kind])]
        simp [argO, Term.children, Out.bind, g1, g1', g2, Out.map]
      · intro x hx
        rcases List.mem_cons.mp hx with rfl | hx
        · exact hs
        · exact h2 x hx
      · simp [h3, argPattern]
      · simp [typesOf, g1, Out.bind, g3, Out.map]

/-- two substitutions that bind exactly the same parameters and give the same instances are the same -/
theorem binds_unique {ds : List Term} {ctx ctx' : Ctx} (h : BindsExactly ctx ds) (h' : BindsExactly ctx' ds)
    (he : ∀ d ∈ ds, subst (ctxSub ctx) (argPattern d) = subst (ctxSub ctx') (argPattern d)) (p : Term) :
    ctx.find p = ctx'.find p := by
  cases hc : ctx.find p with
  | none =>
    cases hc' : ctx'.find p with
    | none => rfl
    | some v =>
      obtain ⟨w, hw⟩ := (h p).mpr ((h' p).mp ⟨v, hc'⟩)
      rw [hc] at hw; simp at hw
  | some v =>
    have hp := (h p).mp ⟨v, hc⟩
    obtain ⟨w, hw⟩ := (h' p).mpr hp
    obtain ⟨hp, d, hd, hs⟩ := hp
    have := subst_inj _ _ _ (he d hd) p hs hp
    simp only [ctxSub, hc, hw, Option.getD_some] at this
    rw [hw, this]

/-- the run of `getTypeAppInternal` when the arguments fit -/
theorem typeApp_complete {env : Env} {hd ret ty : Term} {args doms : List Term} {k : Kind} {ctx : Ctx}
    (hk : k = FUNCTION_TYPE ∨ k = PROGRAM_TYPE) (hh : TypeResult env hd (some (.node k (doms ++ [ret]))))
    (hl : doms.length = args.length) (hb : BindsExactly ctx doms)
    (hf : ∀ (i : Nat) (d t : Term), doms[i]? = some d → args[i]? = some t → Fits env (ctxSub ctx) d t)
    (hr : EvaluatesTo env ctx ret ty) (hany : ∀ d ∈ doms, ∀ s, Sub s (argPattern d) → ¬ IsAny s) :
    ∃ N ctx' cts, typeApp (ops env N) (hd :: args) = .ok (some ty, ctx') ∧ (∀ p, ctx.find p = ctx'.find p) ∧
      typesOf (ops env N) (hd :: args) = .ok (some cts) := by
  obtain ⟨n, prs, h1, h2, h3, cts, h4⟩ := fits_pairs doms args hl hf
  have hpat : ∀ q ∈ prs, ∃ d ∈ doms, q.1 = argPattern d := by
    intro q hq
    have : q.1 ∈ prs.map Prod.fst := List.mem_map_of_mem hq
    rw [h3] at this
    obtain ⟨d, hd, he⟩ := List.mem_map.mp this
    exact ⟨d, hd, he.symm⟩
  have hpat' : ∀ d ∈ doms, ∃ q ∈ prs, q.1 = argPattern d := by
    intro d hd
    have : argPattern d ∈ doms.map argPattern := List.mem_map_of_mem hd
    rw [← h3] at this
    obtain ⟨q, hq, he⟩ := List.mem_map.mp this
    exact ⟨q, hq, he⟩
  obtain ⟨ctx', hm⟩ := matchLoop_complete (ctxSub ctx) (Term.sizes (prs.map Prod.fst)) prs [] []
    (Nat.le_refl _) (by
      intro q hq
      refine ⟨h2 q hq, ?_⟩
      obtain ⟨d, hd, he⟩ := hpat q hq
      rw [he]; exact hany d hd) (by intro q _ p v _ _ h; simp [Ctx.find] at h)
  obtain ⟨m1, _, m3⟩ := matchLoop_instance hm
  have hb' : BindsExactly ctx' doms := by
    intro p
    constructor
    · rintro ⟨v, hv⟩
      rcases m3 p v hv with h6 | ⟨h6, q, h7, h8⟩
      · simp [Ctx.find] at h6
      · obtain ⟨d, hd, he⟩ := hpat q h7
        exact ⟨h6, d, hd, he ▸ h8⟩
    · rintro ⟨hp, d, hd, hs⟩
      obtain ⟨q, hq, he⟩ := hpat' d hd
      exact (m1 q.1 q.2 hq).2 p (he ▸ hs) hp
  have hfind : ∀ p, ctx.find p = ctx'.find p := by
    refine binds_unique hb hb' ?_
    intro d hd
    obtain ⟨q, hq, he⟩ := hpat' d hd
    rw [← he, h2 q hq, (m1 q.1 q.2 hq).1]
  obtain ⟨m, hm1⟩ := hh
  obtain ⟨m', hm2⟩ := evaluatesTo_congr hr hfind
  have l1 : n ≤ max n (max m m') := by omega
  have l2 : m ≤ max n (max m m') := by omega
  have l3 : m' ≤ max n (max m m') := by omega
  have g1 := ((ops_mono env l2).getType hd).ok hm1
  have g2 := (appPairs_mono (ops_mono env l1) doms args).ok h1
  have g3 := (typesOf_mono (ops_mono env l1) args).ok h4
  have g4 := ((ops_mono env l3).evaluate ret ctx').ok hm2
  generalize max n (max m m') = N at g1 g2 g3 g4
  refine ⟨N, ctx', .node k (doms ++ [ret]) :: cts, ?_, hfind, by simp [typesOf, g1, g3, Out.bind, Out.map]⟩
  unfold typeApp
  simp only [argO, List.getElem?_cons_zero, Out.bind, g1]
  rw [if_neg (by rintro ⟨h5, h6⟩; rcases hk with rfl | rfl <;> simp [Term.kind] at h5 h6)]
  simp only [Term.children, List.length_append, List.length_cons, hl, List.length_nil, ne_eq, not_true_eq_false,
    if_false, List.dropLast_concat, List.tail_cons, g2, hm, if_true, List.getLast?_concat, g4, Out.map]

/-- **C45**, converse.  If the head is declared with argument types that one substitution makes the arguments fit,
and the return type evaluates to a reduced type under it, then the application has that type.  (The
argument types contain no unknown type `ANY`, which can not be written.) -/
theorem C45_complete {env : Env} {hd ret ty : Term} {args doms : List Term} {k : Kind} {ctx : Ctx}
    (hk : k = FUNCTION_TYPE ∨ k = PROGRAM_TYPE) (hh : TypeResult env hd (some (.node k (doms ++ [ret]))))
    (hl : doms.length = args.length) (hb : BindsExactly ctx doms)
    (hf : ∀ (i : Nat) (d t : Term), doms[i]? = some d → args[i]? = some t → Fits env (ctxSub ctx) d t)
    (hr : EvaluatesTo env ctx ret ty) (hany : ∀ d ∈ doms, ∀ s, Sub s (argPattern d) → ¬ IsAny s)
    (hred : Closed ty → IsValue ty) : TypeResult env (.node APPLY (hd :: args)) (some ty) := by
  obtain ⟨N, ctx', cts, happ, _, hts⟩ := typeApp_complete hk hh hl hb hf hr hany
  refine ⟨N+1, ?_⟩
  simp only [ops, typeStep, Term.children, hts, Out.bind, Out.map, typeInternal, Term.kind, happ]
  rw [if_neg]
  simp only [Bool.and_eq_true]
  rintro ⟨h5, h6⟩
  have := (isValue_iff ty).mp (hred ((closed_iff ty).mpr h5))
  rw [this.2] at h6; simp at h6

/-- **C45**.  Exactly the declared number of arguments. -/
theorem C45_arity {env : Env} {hd : Term} {args : List Term} {k : Kind} {doms : List Term} {ret ty : Term}
    (hh : TypeResult env hd (some (.node k (doms ++ [ret])))) (h : TypeResult env (.node APPLY (hd :: args)) (some ty)) :
    doms.length = args.length := by
  obtain ⟨⟨k', doms', ret', ctx, _, h1, h2, _⟩⟩ := C45_sound h
  have := TypeResult.det hh h1
  simp only [Option.some.injEq, Term.node.injEq] at this
  have := congrArg List.length this.2
  simp at this
  omega

/-- **C45** for opaque applications `APPLY_OPAQUE`, which are typed in the same way. -/
theorem C45_opaque {env : Env} {hd : Term} {args : List Term} {r : Option Term} :
    TypeResult env (.node APPLY_OPAQUE (hd :: args)) r ↔ TypeResult env (.node APPLY (hd :: args)) r := by
  have : ∀ n, (ops env n).getType (.node APPLY_OPAQUE (hd :: args)) = (ops env n).getType (.node APPLY (hd :: args)) := by
    intro n
    cases n with
    | zero => rfl
    | succ n => rfl
  simp only [TypeResult, this]

/-- **C46** for every term but a symbol: the reported type, if closed, contains no computation. -/
theorem C46_compound {env : Env} {t ty : Term} (hs : ∀ k i, t ≠ .sym k i) (h : TypeResult env t (some ty)) (hc : Closed ty) :
    IsValue ty := by
  obtain ⟨n, hn⟩ := h
  cases n with
  | zero => simp [ops] at hn
  | succ n =>
    have key : (typesOf (ops env n) t.children).bind (fun cts => match cts with
        | none => .ok none
        | some ctypes => (typeInternal env (ops env n) t ctypes).map fun r => match r with
          | none => none
          | some t => if t.ground && t.evaluatable then none else some t) = .ok (some ty) := by
      cases t with
      | sym k i => exact absurd rfl (hs k i)
      | lit l => exact hn
      | node k cs => exact hn
    obtain ⟨cts, _, h2⟩ := bind_ok key
    cases cts with
    | none => simp at h2
    | some cts =>
      obtain ⟨r, _, h4⟩ := map_ok h2
      cases r with
      | none => simp at h4
      | some t' =>
        simp only at h4
        split at h4
        · simp at h4
        · rename_i hb
          simp only [Option.some.injEq] at h4
          subst h4
          rw [value_of_closed hc]
          rw [(closed_iff t').mp hc] at hb
          simpa using hb

/-- **C46**.  If the symbols were declared with reduced types (the parser rejects closed types with computation,
expr_parser.cpp:469-524), then no term has a closed type that still contains computation. -/
theorem C46_reduced {env : Env} (hsym : ∀ s ty, env.symType s = some ty → Closed ty → IsValue ty) {t ty : Term}
    (h : TypeResult env t (some ty)) (hc : Closed ty) : IsValue ty := by
  cases t with
  | sym k i =>
    obtain ⟨n, hn⟩ := h
    cases n with
    | zero => simp [ops] at hn
    | succ n =>
      simp only [ops, typeStep, Out.ok.injEq] at hn
      exact hsym _ _ hn hc
  | lit l => exact C46_compound (by simp) h hc
  | node k cs => exact C46_compound (by simp) h hc

/-- **C46**.  Every subterm of a term with a type has a type. -/
theorem C46_subterms {env : Env} {s t : Term} (hs : Sub s t) (h : WellTyped env t) : WellTyped env s := by
  induction hs with
  | refl => exact h
  | child k cs c hc _ ih =>
    apply ih
    obtain ⟨ty, h⟩ := h
    obtain ⟨n, cts, h1, _⟩ := typeResult_node h
    obtain ⟨ct, h2⟩ := typesOf_spec h1 c hc
    exact ⟨ct, n, h2⟩

/-! ### Example: a polymorphic predicate `p : (-> T T Bool)` uncurried, a constant `a : Int` and `b : Real` -/

def tyT : Term := .sym PARAM 1
def tyInt : Term := .sym CONST 2
def tyReal : Term := .sym CONST 3
def cP : Term := .sym PROGRAM_CONST 4
def cA : Term := .sym CONST 5
def cB : Term := .sym CONST 6
def exTyEnv : Env where
  symType t := if t = tyT ∨ t = tyInt ∨ t = tyReal then some tType
    else if t = cP then some (.node PROGRAM_TYPE [tyT, tyT, tyT])
    else if t = cA then some tyInt else if t = cB then some tyReal else none
  symName _ := []
  appInfo _ := none
  litRule _ := none
  hash _ := 0
  boundVar _ t := t
  tmp t := t
  self := .sym PARAM 0
  listCons := .sym CONST 100
  listNil := .sym CONST 101
  listType := .sym CONST 102
  proofType := .sym CONST 103

example : TypeResult exTyEnv (.node APPLY [cP, cA, cA]) (some tyInt) := ⟨5, by rfl⟩
example : TypeResult exTyEnv (.node APPLY [cP, cA, cB]) none := ⟨5, by rfl⟩
example : TypeResult exTyEnv (.node APPLY [cP, cA]) none := ⟨5, by rfl⟩
example : ∀ s ty, exTyEnv.symType s = some ty → Closed ty → IsValue ty := by
  intro s ty h hc
  simp only [exTyEnv] at h
  rw [value_of_closed hc]
  split at h
  · cases h; rfl
  · split at h
    · cases h; rfl
    · split at h
      · cases h; rfl
      · split at h
        · cases h; rfl
        · simp at h
example : AppTyping exTyEnv cP [cA, cA] tyInt := C45_sound ⟨5, by rfl⟩
example : Closed tyInt ∧ IsValue tyInt := by
  have : IsValue tyInt := (isValue_iff _).mpr ⟨rfl, rfl⟩
  exact ⟨value_closed this, this⟩
example : WellTyped exTyEnv cB → Spec.Sub cA (.node APPLY [cP, cA, cA]) := fun _ => .child _ _ _ cA (by simp) (.refl _)

end Ethos.Props
