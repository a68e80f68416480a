import Verif.Props.Desugar
/-
C41: overload resolution.
-/
namespace Ethos.Props
open Ethos Kind Spec

variable {env : Env}

/-- `x` is the application of `g` to `args`, built from the declaration of `g` alone -/
def OwnApp (env : Env) (g : Term) (args : List Term) (x : Term) : Prop :=
  (env.appInfo g = none ∧ args ≠ [] ∧ Curry g args x) ∨ ∃ ai, env.appInfo g = some ai ∧ AppForm env g ai.attr ai.cons args x

/-- `g` is not declared with a nil terminator that has parameters -/
def ConstNil (env : Env) (g : Term) : Prop := ∀ ai ct, env.appInfo g = some ai → ai.cons = some ct → ct.kind ≠ PARAMETERIZED

/-- the candidate built in one round of the search -/
theorem overload_round {hd g x : Term} {args : List Term} (h : OwnApp env g args x) (hg : g = hd ∨ ConstNil env g) :
    ∃ n0, ∀ n, n0 ≤ n → overloadApp env (ops env n) (mkExpr env (ops env n) n) (hd :: args) g = .ok x := by
  suffices ∃ n, overloadApp env (ops env n) (mkExpr env (ops env n) n) (hd :: args) g = .ok x by
    obtain ⟨n0, h0⟩ := this
    exact ⟨n0, fun n hn => (overloadApp_mono (mkExpr_mono (ops_mono env hn) n0 n hn) (ops_mono env hn) _ _).ok h0⟩
  unfold overloadApp
  rcases h with ⟨h1, h2, h3⟩ | ⟨ai, h1, h2⟩
  · refine ⟨0, ?_⟩
    rw [h1]
    simp [Out.map, mkApply_eq h2, (curry_iff _ _ _).mp h3]
  · obtain ⟨n0, c, h3, h4⟩ := appForm_spec (hd := hd) h2 (by
      rcases hg with rfl | hg
      · exact .inl rfl
      · exact .inr fun ct hct => hg ai ct h1 hct)
    refine ⟨n0, ?_⟩
    rw [h1]
    simp only [h3, Out.bind, List.tail_cons]
    rcases h4 with h4 | ⟨_, h4, h6, _, _, _, rfl⟩
    · rw [h4]; rfl
    · rw [h4]; simp [Out.map, mkApply_eq h6]

theorem overloadLoop_round {o : Ops} {mk : Kind → List Term → Out Term} {hd g x : Term} {args fs : List Term} {rt : Option Term} {ra : Bool}
    (h : overloadApp env o mk (hd :: args) g = .ok x) :
    overloadLoop env o mk (hd :: args) rt ra (g :: fs) = (o.getType x).bind fun t =>
      match t with
      | some t => if rt = none ∨ rt = some t then .ok (some (if ra then x else g)) else overloadLoop env o mk (hd :: args) rt ra fs
      | none => overloadLoop env o mk (hd :: args) rt ra fs := by
  rw [overloadLoop, h]; rfl

/-- the search returns the first candidate whose application is well typed (and has the required type) -/
theorem overload_search {hd g x T : Term} {args : List Term} {rt : Option Term} {ra : Bool} (older : List Term) : ∀ (newer : List Term),
    OwnApp env g args x → (g = hd ∨ ConstNil env g) → TypeResult env x (some T) → (rt = none ∨ rt = some T) →
    (∀ h ∈ newer, (h = hd ∨ ConstNil env h) ∧ ∃ y, OwnApp env h args y ∧ ∃ r, TypeResult env y r ∧ (r = none ∨ rt ≠ none ∧ r ≠ rt)) →
    ∃ n0, ∀ n, n0 ≤ n → overloadLoop env (ops env n) (mkExpr env (ops env n) n) (hd :: args) rt ra (newer ++ g :: older) =
      .ok (some (if ra then x else g))
  | [], ha, hg, ht, hr, _ => by
    obtain ⟨n0, h0⟩ := overload_round ha hg
    obtain ⟨m, hm⟩ := ht
    refine ⟨max n0 m, fun n hn => ?_⟩
    rw [List.nil_append, overloadLoop_round (h0 n (by omega)), ((ops_mono env (by omega : m ≤ n)).getType x).ok hm]
    simp only [Out.bind]
    rw [if_pos hr]
  | h :: newer, ha, hg, ht, hr, hn => by
    obtain ⟨n1, h1⟩ := overload_search older newer ha hg ht hr fun h' hh => hn h' (by simp [hh])
    obtain ⟨hh, y, hy, r, ⟨m, hm⟩, hr'⟩ := hn h (by simp)
    obtain ⟨n0, h0⟩ := overload_round hy hh
    refine ⟨max n0 (max n1 m), fun n hle => ?_⟩
    rw [List.cons_append, overloadLoop_round (h0 n (by omega)), ((ops_mono env (by omega : m ≤ n)).getType y).ok hm]
    simp only [Out.bind]
    rcases hr' with rfl | ⟨h2, h3⟩
    · exact h1 n (by omega)
    · cases r with
      | none => exact h1 n (by omega)
      | some T' =>
        simp only
        rw [if_neg (fun h => h.elim h2 fun h => h3 h.symm)]
        exact h1 n (by omega)

/-- the search fails if no candidate is well typed -/
theorem overload_fail {hd : Term} {args : List Term} {rt : Option Term} {ra : Bool} : ∀ (cands : List Term),
    (∀ h ∈ cands, (h = hd ∨ ConstNil env h) ∧ ∃ y, OwnApp env h args y ∧ ∃ r, TypeResult env y r ∧ (r = none ∨ rt ≠ none ∧ r ≠ rt)) →
    ∃ n0, ∀ n, n0 ≤ n → overloadLoop env (ops env n) (mkExpr env (ops env n) n) (hd :: args) rt ra cands = .ok none
  | [], _ => ⟨0, fun _ _ => rfl⟩
  | h :: cands, hn => by
    obtain ⟨n1, h1⟩ := overload_fail (ra := ra) cands fun h' hh => hn h' (by simp [hh])
    obtain ⟨hh, y, hy, r, ⟨m, hm⟩, hr'⟩ := hn h (by simp)
    obtain ⟨n0, h0⟩ := overload_round hy hh
    refine ⟨max n0 (max n1 m), fun n hle => ?_⟩
    rw [overloadLoop_round (h0 n (by omega)), ((ops_mono env (by omega : m ≤ n)).getType y).ok hm]
    simp only [Out.bind]
    rcases hr' with rfl | ⟨h2, h3⟩
    · exact h1 n (by omega)
    · cases r with
      | none => exact h1 n (by omega)
      | some T' =>
        simp only
        rw [if_neg (fun h => h.elim h2 fun h => h3 h.symm)]
        exact h1 n (by omega)

/-- `hd` is overloaded, with the candidates `ov` in the order of their binding -/
def Overloaded (env : Env) (hd : Term) (ov : List Term) : Prop :=
  ∃ ai name, env.appInfo hd = some ai ∧ ai.kind = NONE ∧ ai.overload = some name ∧ env.overloads name = ov

/-- **C41** (partial: candidates other than the symbol written must not have a nil terminator with parameters).  An
application of an overloaded symbol denotes the application of the most recent candidate that is well typed. -/
theorem C41_latest_partial {hd g x T : Term} {args older newer : List Term} (ho : Overloaded env hd (older ++ g :: newer))
    (ha : OwnApp env g args x) (hg : g = hd ∨ ConstNil env g) (ht : TypeResult env x (some T))
    (hn : ∀ h ∈ newer, (h = hd ∨ ConstNil env h) ∧ ∃ y, OwnApp env h args y ∧ TypeResult env y none) : Denotes env hd args x := by
  obtain ⟨ai, name, h1, h2, h3, h4⟩ := ho
  obtain ⟨n0, h0⟩ := overload_search (rt := none) (ra := true) older.reverse newer.reverse ha hg ht (.inl rfl) (by
    intro h hh
    obtain ⟨p, y, hy, hyt⟩ := hn h (by simpa using hh)
    exact ⟨p, y, hy, none, hyt, .inl rfl⟩)
  rw [denotes_app]
  refine ⟨n0, ?_⟩
  have h0 := h0 n0 (Nat.le_refl _)
  have hrev : (older ++ g :: newer).reverse = newer.reverse ++ g :: older.reverse := by simp
  simp only [mkApp, h1, h2, h3, h4, getOverload, hrev, h0, ne_eq, not_true_eq_false, if_false, Out.bind, if_true]

/-- **C41** (partial).  If no candidate is well typed, the application of the symbol written is built, which then has no
type if it is among the candidates. -/
theorem C41_none_partial {hd x : Term} {args ov : List Term} (ho : Overloaded env hd ov) (ha : OwnApp env hd args x) (hk : hd.kind = CONST)
    (hn : ∀ h ∈ ov, (h = hd ∨ ConstNil env h) ∧ ∃ y, OwnApp env h args y ∧ TypeResult env y none) : Denotes env hd args x := by
  obtain ⟨ai, name, h1, h2, h3, h4⟩ := ho
  obtain ⟨n0, h0⟩ := overload_fail (rt := none) (ra := true) ov.reverse (by
    intro h hh
    obtain ⟨p, y, hy, hyt⟩ := hn h (by simpa using hh)
    exact ⟨p, y, hy, none, hyt, .inl rfl⟩)
  rcases ha with ⟨h5, _⟩ | ⟨ai', h5, h6⟩
  · rw [h1] at h5; cases h5
  · rw [h1] at h5; injection h5 with h5; subst h5
    obtain ⟨n1, c, h7, h8⟩ := appForm_spec (hd := hd) h6 (.inl rfl)
    rw [denotes_app]
    refine ⟨max n0 n1, ?_⟩
    have hle := Nat.le_max_right n0 n1
    have h0 := h0 (max n0 n1) (Nat.le_max_left _ _)
    have h9 := (consTerm_mono (ops_mono env hle) ai (hd :: args)).ok h7
    simp only [mkApp, h1, h2, h3, h4, getOverload, h0, ne_eq, not_true_eq_false, if_false, Out.bind, h9]
    rcases h8 with h8 | ⟨_, h8, hne, k1, k2, k3, rfl⟩
    · rw [(mkApplyAttr_mono (mkExpr_mono (ops_mono env hle) n1 _ hle) ai hd args c).ok h8]
    · rw [(mkApplyAttr_mono (mkExpr_mono (ops_mono env hle) n1 _ hle) ai hd args c).ok h8]
      exact mkPlainApp_curry hne k1 k2 k3

/-- **C41** for `(eo::as t (-> T1 … Tn T))` (partial: no parametric nil terminators): the most recent candidate whose
application to fresh constants of types `T1 … Tn` has type `T`. -/
theorem C41_as_partial {t g ty ret x : Term} {doms older newer ks : List Term} (ho : Overloaded env t (older ++ g :: newer))
    (hty : getFunctionType ty = (doms, ret)) (hks : ks = doms.zipIdx.map fun p => env.dummy p.2 p.1)
    (ha : OwnApp env g ks x) (hg : ConstNil env g) (ht : TypeResult env x (some ret))
    (hn : ∀ h ∈ newer, ConstNil env h ∧ ∃ y, OwnApp env h ks y ∧ ∃ r, TypeResult env y r ∧ r ≠ some ret) : Builds env AS [t, ty] g := by
  obtain ⟨ai, name, h1, h2, h3, h4⟩ := ho
  obtain ⟨n0, h0⟩ := overload_search (hd := ty) (rt := some ret) (ra := false) older.reverse newer.reverse ha (.inr hg) ht (.inr rfl) (by
    intro h hh
    obtain ⟨p, y, hy, r, hyt, hr⟩ := hn h (by simpa using hh)
    exact ⟨.inr p, y, hy, r, hyt, .inr ⟨by simp, hr⟩⟩)
  rw [Builds.step]
  refine ⟨n0, ?_⟩
  have h0 := h0 n0 (Nat.le_refl _)
  have hrev : (older ++ g :: newer).reverse = newer.reverse ++ g :: older.reverse := by simp
  subst hks
  simp only [Bool.false_eq_true, if_false] at h0
  simp [mkExprStep, mkAs, h1, h3, h4, getOverload, hty, hrev, h0, Out.map, isLiteralOp]

/-! ### Examples and refutations -/

def tyV : Term := .sym PARAM 50
def ovF1 : Term := .sym CONST 51
def ovF2 : Term := .sym CONST 52
def ovZero : Term := .sym CONST 53
def ovA : Term := .sym CONST 54
def ovNil : Term := .node PARAMETERIZED [.node TUPLE [tyV], .node APPLY [ovZero, tyV]]
/-- `f` is bound to `f1 : (-> T T T)`, declared `:right-assoc-nil` with the terminator `(zero T)`, and then to
`f2 : (-> Bool Bool Bool)`; `a` has type `Int` -/
def exOvEnv (nil : Bool) : Env := { exTyEnv with
  symType := fun t => if t = ovF1 then some (.node FUNCTION_TYPE [tyV, .node FUNCTION_TYPE [tyV, tyV]])
    else if t = ovF2 then some (.node FUNCTION_TYPE [tBool, .node FUNCTION_TYPE [tBool, tBool]])
    else if t = ovZero then some (.node FUNCTION_TYPE [.node QUOTE_TYPE [tyV], tyV])
    else if t = tyV ∨ t = tyInt then some tType
    else if t = ovA then some tyInt else none
  appInfo := fun t => if t = ovF1 then (if nil then some ⟨.RIGHT_ASSOC_NIL, some ovNil, NONE, none⟩ else none)
    else if t = ovF2 then some ⟨.NONE, none, NONE, some [102]⟩ else none
  overloads := fun s => if s = [102] then [ovF1, ovF2] else [] }

/-- without attributes, `(f a a)` denotes `(f1 a a)`: `f2` is not well typed -/
example : Denotes (exOvEnv false) ovF2 [ovA, ovA] (bin ovF1 ovA ovA) := by
  refine C41_latest_partial (T := tyInt) (older := []) (newer := [ovF2]) ⟨_, _, rfl, rfl, rfl, rfl⟩
    (.inl ⟨rfl, by simp, (curry_iff _ _ _).mpr rfl⟩) (.inr ?_) ⟨20, rfl⟩ ?_
  · intro ai ct h; cases h
  · intro h hh
    simp only [List.mem_singleton] at hh
    subst hh
    exact ⟨.inl rfl, bin ovF2 ovA ovA, .inr ⟨_, rfl, .plain _ _ (by simp) (by decide) (by decide) (by decide) ((curry_iff _ _ _).mpr rfl)⟩, 20, rfl⟩

/-- **C41** fails for candidates with a parametric nil terminator: the terminator is inferred from the type of the
symbol written instead of the candidate's.  Here `f1` alone gives the well-typed `(f1 a (f1 a (zero Int)))`, but the
overloaded application is built with `f2`, which is ill typed. -/
theorem C41_parametric_refuted : ∃ (env : Env) (hd g : Term) (args : List Term) (x y T : Term), Overloaded env hd [g, hd] ∧ OwnApp env g args x ∧
    TypeResult env x (some T) ∧ OwnApp env hd args y ∧ TypeResult env y none ∧ Denotes env hd args y ∧ ¬ Denotes env hd args x := by
  have hz : NilFor (exOvEnv true) ovF1 ovA ovNil (.node APPLY [ovZero, tyInt]) := by
    refine .infer _ _ [] [(tyV, tyInt)] FUNCTION_TYPE tyV (.node FUNCTION_TYPE [tyV, tyV]) (.node FUNCTION_TYPE [tyInt, tyInt]) _
      (.inl rfl) ⟨1, rfl⟩ (.plain _ _ (by decide) ⟨1, rfl⟩) ?_ ⟨20, rfl⟩ ?_ ?_ ⟨20, rfl⟩
    · intro p
      have hs : ∀ q, Sub q (argPattern tyV) ↔ q = tyV := by
        intro q
        constructor
        · intro h
          rcases h.inv with rfl | ⟨c, hc, _⟩
          · rfl
          · simp [argPattern, tyV, Term.children] at hc
        · rintro rfl; exact .refl _
      simp only [find_cons, List.mem_cons, List.not_mem_nil, or_false, exists_eq_left, hs]
      constructor
      · rintro ⟨v, hv⟩
        split at hv
        · rename_i h; subst h; exact ⟨⟨rfl, rfl⟩, rfl⟩
        · simp [Ctx.find] at hv
      · rintro ⟨_, rfl⟩; exact ⟨tyInt, by simp⟩
    · intro s hs
      rcases hs.inv with rfl | ⟨c, hc, _⟩
      · simp [IsAny, tyV, argPattern, Term.kind]
      · simp [argPattern, tyV, Term.children] at hc
    · intro p hp
      simp only [Term.children, List.mem_cons, List.not_mem_nil, or_false] at hp
      subst hp
      exact ⟨tyInt, by rfl, (ground_iff tyInt).mp rfl⟩
  have hl : ∀ t ∈ [ovA, ovA], ¬ IsListParam (exOvEnv true) t := by
    intro t ht
    simp only [List.mem_cons, List.not_mem_nil, or_false, or_self] at ht
    subst ht
    rw [isListParam_iff]; decide
  have hd : Denotes (exOvEnv true) ovF2 [ovA, ovA] (bin ovF2 ovA ovA) := ⟨30, rfl⟩
  refine ⟨exOvEnv true, ovF2, ovF1, [ovA, ovA], rlist ovF1 (.node APPLY [ovZero, tyInt]) [ovA, ovA], bin ovF2 ovA ovA, tyInt,
    ⟨_, _, rfl, rfl, rfl, rfl⟩, .inr ⟨_, rfl, .rightNil _ _ _ _ _ (.known _ hz) (rightNil_rlist (by simp) hl)⟩, ⟨30, rfl⟩,
    .inr ⟨_, rfl, .plain _ _ (by simp) (by decide) (by decide) (by decide) ((curry_iff _ _ _).mpr rfl)⟩, ⟨30, rfl⟩, hd, ?_⟩
  intro h
  have := C23_unique h hd
  simp [rlist, bin, ovF1, ovF2] at this

/-- `(eo::as t T)` for a type `T` that is not a function type is never resolved, even if `t` has type `T`: the application
of `t` to no arguments has no type. -/
theorem C41_as_constant_refuted : ∃ (env : Env) (t T : Term), TypeResult env t (some T) ∧ T.kind ≠ FUNCTION_TYPE ∧
    Builds env AS [t, T] (.node AS [t, T]) ∧ ¬ Builds env AS [t, T] t := by
  have h : Builds (exOvEnv true) AS [ovA, tyInt] (.node AS [ovA, tyInt]) := ⟨20, rfl⟩
  exact ⟨exOvEnv true, ovA, tyInt, ⟨1, rfl⟩, by decide, h, fun h' => by have := Builds.det h h'; simp [ovA] at this⟩

end Ethos.Props
