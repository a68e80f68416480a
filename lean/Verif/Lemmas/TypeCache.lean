import Verif.Lemmas.EvalOps
import Verif.Spec.TypeCache
/-
Lemmas on the table of types.
-/
namespace Ethos.Props
open Ethos Kind Spec

theorem Le.bind' {α β : Type} {x y : Out α} {f g : α → Out β} (h : Le x y) (hf : ∀ a, x = .ok a → Le (f a) (g a)) : Le (x.bind f) (y.bind g) := by
  rcases h with rfl | rfl
  · exact .inl rfl
  · cases x with
    | ok a => exact hf a rfl
    | ub => exact .inr rfl
    | fuel => exact .inr rfl

section
variable {o o' : Ops} (he : ∀ t ctx, Le (o.evaluate t ctx) (o'.evaluate t ctx)) (env : Env)

theorem appPairs_rel : ∀ (ts cs : List Term), (∀ a ∈ ts, a.kind = QUOTE_TYPE → ∀ q, a.children[0]? = some q → Le (o.getType q) (o'.getType q)) →
    (∀ c ∈ cs, Le (o.getType c) (o'.getType c)) → Le (appPairs o ts cs) (appPairs o' ts cs)
  | [], _, _, _ => by unfold appPairs; exact .refl _
  | _ :: _, [], _, _ => by unfold appPairs; exact .refl _
  | t :: ts, c :: cs, h1, h2 => by
    have ih := appPairs_rel ts cs (fun a ha => h1 a (by simp [ha])) fun c hc => h2 c (by simp [hc])
    have hc := h2 c (by simp)
    unfold appPairs
    by_cases hk : t.kind = QUOTE_TYPE
    · rw [if_pos hk, if_pos hk]
      refine .bind' (.refl _) fun q hq => .bind hc fun ct => .bind (h1 t (by simp) hk q ?_) fun cte => ?_
      · simp only [argO] at hq
        split at hq <;> simp_all
      · cases ct with
        | none => exact .refl _
        | some t => exact .ite (.map ih) (.refl _)
    · rw [if_neg hk, if_neg hk]
      refine .bind hc fun ct => ?_
      cases ct with
      | none => exact .refl _
      | some t => exact .map ih

include he

theorem typeApp_rel (cs : List Term) (h1 : ∀ c ∈ cs, Le (o.getType c) (o'.getType c))
    (h2 : ∀ hd ∈ cs, ∀ ty, o.getType hd = .ok (some ty) → ∀ q, Quoted q ty → Le (o.getType q) (o'.getType q)) : Le (typeApp o cs) (typeApp o' cs) := by
  unfold typeApp
  refine .bind' (.refl _) fun hd hhd => ?_
  have hm : hd ∈ cs := by
    simp only [argO] at hhd
    split at hhd
    · cases hhd; exact List.mem_of_getElem? ‹_›
    · cases hhd
  refine .bind' (h1 hd hm) fun ht hht => ?_
  cases ht with
  | none => exact .refl _
  | some t =>
    refine .ite (.refl _) (.ite (.refl _) (.bind (appPairs_rel _ _ (fun a ha hk q hq => ?_) fun c hc => ?_) fun r => ?_))
    · exact h2 hd hm t hht q ⟨a, List.dropLast_subset _ ha, hk, hq⟩
    · exact h1 c (List.mem_of_mem_tail hc)
    · split
      · exact .refl _
      · exact .refl _
      · split
        · split
          · exact .refl _
          · exact .map (he _ _)
        · exact .refl _

theorem litType_rel (k : Kind) (s : Option Term) : Le (litType env o k s) (litType env o' k s) := by
  unfold litType
  exact .ite (.refl _) (.map (he _ _))

theorem litOpType_rel (k : Kind) (a b : List Term) : Le (litOpType env o k a b) (litOpType env o' k a b) := by
  unfold litOpType
  refine .ite (.refl _) ?_
  split <;> first | exact .refl _ | exact litType_rel he env _ _

omit he in
theorem typesOf_rel : ∀ cs : List Term, (∀ c ∈ cs, Le (o.getType c) (o'.getType c)) → Le (typesOf o cs) (typesOf o' cs)
  | [], _ => .refl _
  | c :: cs, h => by
    unfold typesOf
    refine .bind (h c (by simp)) fun t => ?_
    cases t with
    | none => exact .refl _
    | some t => exact .map (typesOf_rel cs fun c hc => h c (by simp [hc]))

theorem typeInternal_rel (e : Term) (ts : List Term) (h1 : ∀ c ∈ e.children, Le (o.getType c) (o'.getType c))
    (h2 : ∀ hd ∈ e.children, ∀ ty, o.getType hd = .ok (some ty) → ∀ q, Quoted q ty → Le (o.getType q) (o'.getType q))
    (h3 : ∀ v ∈ e.children, ∀ c ∈ v.children, Le (o.getType c) (o'.getType c)) : Le (typeInternal env o e ts) (typeInternal env o' e ts) := by
  unfold typeInternal
  split <;> first
    | exact .refl _
    | exact .map (typeApp_rel he _ h1 h2)
    | exact litType_rel he env _ _
    | exact .ite (litOpType_rel he env _ _ _) (.refl _)
    | skip
  refine .bind' (.refl _) fun v hv => .bind (typesOf_rel _ (h3 v ?_)) fun ts => .refl _
  simp only [argO] at hv
  split at hv
  · cases hv; exact List.mem_of_getElem? ‹_›
  · cases hv

end

/-! ### The table -/

theorem find_sub {env : Env} {c : TypeCache} (hc : Faithful env c) {q t : Term} (h : Sub q t) : ∀ {ty}, c.find env t = some ty → ∃ u, c.find env q = some u := by
  induction h with
  | refl => intro ty h; exact ⟨_, h⟩
  | child _ _ _ hx _ ih =>
    intro ty h
    obtain ⟨u, hu⟩ := hc.closed _ _ h _ hx
    exact ih hu

/-- the smaller table's entries are in the larger one -/
def Extends (env : Env) (c c' : TypeCache) : Prop := ∀ s ty, c.find env s = some ty → c'.find env s = some ty

theorem Extends.refl (env : Env) (c : TypeCache) : Extends env c c := fun _ _ h => h
theorem Extends.trans {env : Env} {c c' c'' : TypeCache} (h : Extends env c c') (h' : Extends env c' c'') : Extends env c c'' := fun s ty hs => h' s ty (h s ty hs)

theorem quotesKnown_extends {env : Env} {c c' : TypeCache} {E : Term} (h : QuotesKnown env c E) (he : Extends env c c') : QuotesKnown env c' E := by
  intro t ty q h0 h1 h2
  rcases h t ty q h0 h1 h2 with ⟨u, hu⟩ | h
  · exact .inl ⟨u, he _ _ hu⟩
  · exact .inr h

theorem child_sub {x e E : Term} (h : Sub e E) (hx : x ∈ e.children) : Sub x E := Spec.Sub.trans (Sub.of_child hx (.refl x)) h

theorem typesOf_types {o : Ops} : ∀ {cs ts : List Term}, typesOf o cs = .ok (some ts) → ∀ c ∈ cs, ∃ t, o.getType c = .ok (some t)
  | [], _, _, c, hc => by cases hc
  | d :: cs, ts, h, c, hc => by
    unfold typesOf at h
    cases h1 : o.getType d with
    | ok r =>
      rw [h1] at h
      cases r with
      | none => simp [Out.bind] at h
      | some t =>
        simp only [Out.bind] at h
        cases h2 : typesOf o cs with
        | ok q =>
          rw [h2] at h
          cases q with
          | none => simp [Out.map] at h
          | some us =>
            rcases List.mem_cons.1 hc with rfl | hc
            · exact ⟨t, h1⟩
            · exact typesOf_types h2 c hc
        | _ => rw [h2] at h; simp [Out.map] at h
    | _ => rw [h1] at h; simp [Out.bind] at h

/-- types that were found are found with larger bounds, all at once -/
theorem types_at {env : Env} {c : TypeCache} (hc : Faithful env c) (n : Nat) : ∀ l : List Term, ∃ m, n ≤ m ∧ ∀ x ∈ l, ∀ u, c.find env x = some u →
    (ops env m).getType x = .ok (some u)
  | [] => ⟨n, Nat.le_refl _, by simp⟩
  | x :: l => by
    obtain ⟨m, h1, h2⟩ := types_at hc n l
    cases hx : c.find env x with
    | none =>
      refine ⟨m, h1, fun y hy u hu => ?_⟩
      rcases List.mem_cons.1 hy with rfl | hy
      · rw [hx] at hu; cases hu
      · exact h2 y hy u hu
    | some v =>
      obtain ⟨k, hk⟩ := hc.typed x v hx
      refine ⟨max m k, Nat.le_trans h1 (Nat.le_max_left _ _), fun y hy u hu => ?_⟩
      rcases List.mem_cons.1 hy with rfl | hy
      · rw [hx] at hu
        cases hu
        exact ((ops_mono env (Nat.le_max_right m k)).getType _).ok hk
      · exact ((ops_mono env (Nat.le_max_left m k)).getType _).ok (h2 y hy u hu)

section
variable {env : Env} {c : TypeCache} (hc : Faithful env c) {E : Term} (hq : QuotesKnown env c E) {e : Term} (hE : Sub e E) (hch : ∀ s ∈ e.children, ∃ u, c.find env s = some u)
include hc hq hE hch

omit hch hE in
/-- the quoted terms have entries -/
theorem looked_quoted {hd ty q : Term} (h1 : Sub hd E) (h2 : c.find env hd = some ty) (h3 : Quoted q ty) : ∃ u, c.find env q = some u := by
  rcases hq hd ty q h1 (hc.typed _ _ h2) h3 with h | h
  · exact h
  · exact find_sub hc h h2

/-- with the table, the types of the children and then of a term are found as without -/
theorem internal_complete {m n : Nat} (hmn : m ≤ n) {cts : List Term} {r : Option Term} (h1 : typesOf (ops env m) e.children = .ok (some cts))
    (h2 : typeInternal env (ops env m) e cts = .ok r) :
    typesOf (lookupOps env (ops env n) c) e.children = .ok (some cts) ∧ typeInternal env (lookupOps env (ops env n) c) e cts = .ok r := by
  have hx : ∀ x u, c.find env x = some u → Le ((ops env m).getType x) ((lookupOps env (ops env n) c).getType x) := by
    intro x u hu
    cases h : (ops env m).getType x with
    | fuel => exact .inl rfl
    | ok r =>
      have := TypeResult.det (hc.typed x u hu) ⟨m, h⟩
      subst this
      exact .inr (by simp [lookupOps, hu])
    | ub =>
      exfalso
      obtain ⟨k, hk⟩ := hc.typed x u hu
      have g1 := (ops_mono env (Nat.le_max_left m k)).getType x
      have g2 := ((ops_mono env (Nat.le_max_right m k)).getType x).ok hk
      rw [h, g2] at g1
      rcases g1 with g | g <;> cases g
  have hchl : ∀ s ∈ e.children, Le ((ops env m).getType s) ((lookupOps env (ops env n) c).getType s) := fun s hs => by
    obtain ⟨u, hu⟩ := hch s hs
    exact hx s u hu
  refine ⟨(typesOf_rel _ hchl).ok h1, (typeInternal_rel (o' := lookupOps env (ops env n) c) (fun t ctx => (ops_mono env hmn).evaluate t ctx) env e cts hchl ?_ ?_).ok h2⟩
  · intro hd hhd ty hty q hqt
    obtain ⟨u, hu⟩ := hch hd hhd
    have := TypeResult.det (hc.typed _ _ hu) ⟨m, hty⟩
    cases this
    obtain ⟨w, hw⟩ := looked_quoted hc hq (child_sub hE hhd) hu hqt
    exact hx q w hw
  · intro v hv s hs
    obtain ⟨u, hu⟩ := hch v hv
    obtain ⟨w, hw⟩ := hc.closed _ _ hu s hs
    exact hx s w hw

theorem internal_sound {n : Nat} {cts : List Term} {r : Option Term} (h1 : typesOf (lookupOps env (ops env n) c) e.children = .ok (some cts))
    (h2 : typeInternal env (lookupOps env (ops env n) c) e cts = .ok r) :
    ∃ m, typesOf (ops env m) e.children = .ok (some cts) ∧ typeInternal env (ops env m) e cts = .ok r := by
  -- the terms that are looked up
  have hqs : ∀ hd : Term, ∃ l : List Term, ∀ ty, c.find env hd = some ty → ∀ q, Quoted q ty → q ∈ l := by
    intro hd
    cases h : c.find env hd with
    | none => exact ⟨[], fun _ h => by cases h⟩
    | some ty =>
      refine ⟨ty.children.filterMap fun a => a.children[0]?, fun ty' h q hq => ?_⟩
      cases h
      obtain ⟨a, h1, _, h3⟩ := hq
      exact List.mem_filterMap.2 ⟨a, h1, h3⟩
  have hall : ∀ l : List Term, ∃ L : List Term, ∀ hd ∈ l, ∀ ty, c.find env hd = some ty → ∀ q, Quoted q ty → q ∈ L := by
    intro l
    induction l with
    | nil => exact ⟨[], by simp⟩
    | cons x l ih =>
      obtain ⟨L, hL⟩ := ih
      obtain ⟨M, hM⟩ := hqs x
      refine ⟨M ++ L, fun hd hhd ty hty q hq => ?_⟩
      rcases List.mem_cons.1 hhd with rfl | hhd
      · exact List.mem_append.2 (.inl (hM ty hty q hq))
      · exact List.mem_append.2 (.inr (hL hd hhd ty hty q hq))
  obtain ⟨L, hL⟩ := hall e.children
  obtain ⟨m, hm1, hm2⟩ := types_at hc n (e.children ++ (L ++ e.children.flatMap Term.children))
  have hx : ∀ x ∈ e.children ++ (L ++ e.children.flatMap Term.children), ∀ u, c.find env x = some u →
      Le ((lookupOps env (ops env n) c).getType x) ((ops env m).getType x) := fun x hx u hu => .inr (by rw [hm2 x hx u hu]; simp [lookupOps, hu])
  have hchl : ∀ s ∈ e.children, Le ((lookupOps env (ops env n) c).getType s) ((ops env m).getType s) := fun s hs => by
    obtain ⟨u, hu⟩ := hch s hs
    exact hx s (by simp [hs]) u hu
  refine ⟨m, (typesOf_rel _ hchl).ok h1, (typeInternal_rel (o := lookupOps env (ops env n) c) (fun t ctx => (ops_mono env hm1).evaluate t ctx) env e cts hchl ?_ ?_).ok h2⟩
  · intro hd hhd ty hty q hqt
    have hty : c.find env hd = some ty := by simpa [lookupOps] using hty
    obtain ⟨w, hw⟩ := looked_quoted hc hq (child_sub hE hhd) hty hqt
    exact hx q (by simp [hL hd hhd ty hty q hqt]) w hw
  · intro v hv s hs
    obtain ⟨u, hu⟩ := hch v hv
    obtain ⟨w, hw⟩ := hc.closed _ _ hu s hs
    exact hx s (by simp only [List.mem_append, List.mem_flatMap]; exact .inr (.inr ⟨v, hv, hs⟩)) w hw

end

/-! ### The loop -/

theorem find_cons {env : Env} {c : TypeCache} {t u : Term} (hns : ∀ k i, t ≠ .sym k i) (s : Term) :
    TypeCache.find env ((t, u) :: c) s = if s = t then some u else c.find env s := by
  cases s with
  | sym k i =>
    rw [if_neg fun h => hns k i h.symm]
    rfl
  | lit l =>
    simp only [TypeCache.find, List.lookup]
    by_cases h : Term.lit l = t
    · simp [h]
    · rw [if_neg h, show (Term.lit l == t) = false by simpa using h]
  | node k cs =>
    simp only [TypeCache.find, List.lookup]
    by_cases h : Term.node k cs = t
    · simp [h]
    · rw [if_neg h, show (Term.node k cs == t) = false by simpa using h]

theorem faithful_cons {env : Env} {c : TypeCache} (hc : Faithful env c) {t u : Term} (hns : ∀ k i, t ≠ .sym k i) (ht : TypeResult env t (some u))
    (hch : ∀ s ∈ t.children, ∃ w, c.find env s = some w) : Faithful env ((t, u) :: c) ∧ Extends env c ((t, u) :: c) := by
  have hex : Extends env c ((t, u) :: c) := by
    intro s ty hs
    rw [find_cons hns]
    split
    · next h =>
      subst h
      exact TypeResult.det ht (hc.typed _ _ hs)
    · exact hs
  refine ⟨⟨fun s ty hs => ?_, fun s ty hs x hx => ?_⟩, hex⟩
  · rw [find_cons hns] at hs
    split at hs
    · next h => subst h; cases hs; exact ht
    · exact hc.typed s ty hs
  · rw [find_cons hns] at hs
    have : ∃ w, c.find env x = some w := by
      split at hs
      · next h => subst h; exact hch x hx
      · exact hc.closed s ty hs x hx
    obtain ⟨w, hw⟩ := this
    exact ⟨w, hex _ _ hw⟩

theorem nonSym_ne {t : Term} (h : nonSym t = true) : ∀ k i, t ≠ .sym k i := by
  rintro k i rfl
  cases h

theorem typeStep_nonSym {env : Env} {o : Ops} {t : Term} (h : nonSym t = true) : typeStep env o t = (typesOf o t.children).bind fun cts =>
    match cts with
    | none => .ok none
    | some ctypes => (typeInternal env o t ctypes).map fun r =>
        match r with
        | none => none
        | some t => if t.ground && t.evaluatable then none else some t := by
  cases t with
  | sym => cases h
  | _ => rfl

theorem typeResult_of {env : Env} {m : Nat} {t ty : Term} {cts : List Term} (hs : nonSym t = true) (h1 : typesOf (ops env m) t.children = .ok (some cts))
    (h2 : typeInternal env (ops env m) t cts = .ok (some ty)) (h3 : ¬(ty.ground && ty.evaluatable) = true) : TypeResult env t (some ty) := by
  refine ⟨m + 1, ?_⟩
  show typeStep env (ops env m) t = _
  rw [typeStep_nonSym hs, h1]
  simp only [Out.bind, h2, Out.map, if_neg h3]

theorem typeResult_inv {env : Env} {m : Nat} {t ty : Term} (hs : nonSym t = true) (h : (ops env m).getType t = .ok (some ty)) :
    ∃ j cts, j < m ∧ typesOf (ops env j) t.children = .ok (some cts) ∧ typeInternal env (ops env j) t cts = .ok (some ty) ∧ ¬(ty.ground && ty.evaluatable) = true := by
  cases m with
  | zero => cases h
  | succ m =>
    have h : typeStep env (ops env m) t = .ok (some ty) := h
    rw [typeStep_nonSym hs] at h
    refine ⟨m, ?_⟩
    cases h1 : typesOf (ops env m) t.children with
    | ok r =>
      rw [h1] at h
      cases r with
      | none => cases h
      | some cts =>
        simp only [Out.bind] at h
        cases h2 : typeInternal env (ops env m) t cts with
        | ok r =>
          rw [h2] at h
          cases r with
          | none => cases h
          | some u =>
            simp only [Out.map, Out.ok.injEq] at h
            split at h
            · cases h
            · next h3 => cases h; exact ⟨cts, Nat.lt_succ_self _, rfl, h2, h3⟩
        | _ => rw [h2] at h; cases h
    | _ => rw [h1] at h; cases h

/-- the loop on a nonempty stack -/
theorem typeLoop_cons (env : Env) (o : Ops) (grow : TypeCache → Term → TypeCache) (f : Nat) (t : Term) (rest V : List Term) (c : TypeCache) (ret : Option Term) :
    typeLoop env o grow (f + 1) (t :: rest) V c ret = match c.find env t with
      | some u => typeLoop env o grow f rest V c (some u)
      | none => if nonSym t = false then .ok (none, c)
        else if t ∉ V then typeLoop env o grow f (t.children.reverse ++ t :: rest) (t :: V) c ret
        else (typesOf (lookupOps env o c) t.children).bind fun cts =>
          match cts with
          | none => .ub
          | some ctypes => (typeInternal env (lookupOps env o c) t ctypes).bind fun r =>
            match r with
            | none => .ok (none, grow c t)
            | some u => if u.ground && u.evaluatable then .ok (none, grow c t) else typeLoop env o grow f rest V ((t, u) :: grow c t) (some u) := by
  refine (typeLoop.eq_def ..).trans ?_
  rfl

theorem typeLoop_mono (env : Env) (grow : TypeCache → Term → TypeCache) {n n' : Nat} (hn : n ≤ n') : ∀ {f f' : Nat} (stack V : List Term) (c : TypeCache) (ret : Option Term),
    f ≤ f' → Le (typeLoop env (ops env n) grow f stack V c ret) (typeLoop env (ops env n') grow f' stack V c ret)
  | 0, 0, [], _, _, _, _ => .refl _
  | 0, _ + 1, [], _, _, _, _ => .refl _
  | _ + 1, 0, [], _, _, _, _ => .refl _
  | _ + 1, _ + 1, [], _, _, _, _ => .refl _
  | 0, _, _ :: _, _, _, _, _ => .inl rfl
  | f + 1, f' + 1, t :: rest, V, c, ret, h => by
    have h' : f ≤ f' := by omega
    rw [typeLoop_cons, typeLoop_cons]
    have hty : typesOf (lookupOps env (ops env n') c) t.children = typesOf (lookupOps env (ops env n) c) t.children := by
      generalize t.children = cs
      induction cs with
      | nil => rfl
      | cons x cs ih => simp only [typesOf, ih]; rfl
    split
    · exact typeLoop_mono env grow hn _ _ _ _ h'
    · refine .ite (.refl _) (.ite (typeLoop_mono env grow hn _ _ _ _ h') ?_)
      rw [hty]
      refine .bind (.refl _) fun cts => ?_
      cases cts with
      | none => exact .refl _
      | some cts =>
        refine .bind (typeInternal_rel (o := lookupOps env (ops env n) c) (o' := lookupOps env (ops env n') c)
          (fun t ctx => (ops_mono env hn).evaluate t ctx) env t cts (fun _ _ => .refl _) (fun _ _ _ _ _ _ => .refl _) fun _ _ _ _ => .refl _) fun r => ?_
        cases r with
        | none => exact .refl _
        | some u => exact .ite (.refl _) (typeLoop_mono env grow hn _ _ _ _ h')

/-- the loop keeps the table faithful, and the type it returns is that of the term at the bottom of the stack -/
theorem typeLoop_sound {env : Env} {E : Term} {grow : TypeCache → Term → TypeCache} (hg : Growing env grow) {n : Nat} : ∀ {f : Nat} {stack V : List Term} {c : TypeCache} {ret r : Option Term}
    {c' : TypeCache}, (∀ s ∈ stack, Sub s E) → Faithful env c → QuotesKnown env c E → typeLoop env (ops env n) grow f stack V c ret = .ok (r, c') →
    Faithful env c' ∧ Extends env c c' ∧ ∀ e ty, r = some ty → stack.getLast? = some e → c'.find env e = some ty
  | 0, [], _, _, _, _, _, _, hc, _, h => by cases h; exact ⟨hc, .refl _ _, fun _ _ _ h => by cases h⟩
  | _ + 1, [], _, _, _, _, _, _, hc, _, h => by cases h; exact ⟨hc, .refl _ _, fun _ _ _ h => by cases h⟩
  | 0, _ :: _, _, _, _, _, _, _, _, _, h => by cases h
  | f + 1, t :: rest, V, c, ret, r, c', hE, hc, hq, h => by
    rw [typeLoop_cons] at h
    have hEt : Sub t E := hE t (by simp)
    have hEr : ∀ s ∈ rest, Sub s E := fun s hs => hE s (by simp [hs])
    have hlast : ∀ {c1 : TypeCache} {u : Term} (_ : c1.find env t = some u) (_ : typeLoop env (ops env n) grow f rest V c1 (some u) = .ok (r, c'))
        (_ : Extends env c1 c') (_ : ∀ e ty, r = some ty → rest.getLast? = some e → c'.find env e = some ty),
        ∀ e ty, r = some ty → (t :: rest).getLast? = some e → c'.find env e = some ty := by
      intro c1 u h1 h2 h3 h4 e ty hr hl
      cases rest with
      | nil =>
        cases hl
        have : r = some u := by
          cases f <;> cases h2 <;> rfl
        rw [this] at hr
        cases hr
        exact h3 _ _ h1
      | cons x rest => exact h4 e ty hr (by simpa using hl)
    split at h
    · next u hu =>
      obtain ⟨h1, h2, h3⟩ := typeLoop_sound hg hEr hc hq h
      exact ⟨h1, h2, hlast hu h h2 h3⟩
    · next hf =>
      split at h
      · cases h; exact ⟨hc, .refl _ _, fun _ _ h => by cases h⟩
      · next hs =>
        have hs : nonSym t = true := by cases hx : nonSym t <;> simp_all
        split at h
        · obtain ⟨h1, h2, h3⟩ := typeLoop_sound hg (fun s hs => by
            rcases List.mem_append.1 hs with hs | hs
            · exact child_sub hEt (by simpa using hs)
            · exact hE s hs) hc hq h
          exact ⟨h1, h2, fun e ty hr hl => h3 e ty hr (by
            rw [List.getLast?_append, hl]
            rfl)⟩
        · cases h1 : typesOf (lookupOps env (ops env n) c) t.children with
          | ok a =>
            rw [h1] at h
            cases a with
            | none => cases h
            | some cts =>
              simp only [Out.bind] at h
              have hch : ∀ s ∈ t.children, ∃ u, c.find env s = some u := fun s hs => by
                obtain ⟨u, hu⟩ := typesOf_types h1 s hs
                exact ⟨u, by simpa [lookupOps] using hu⟩
              have hgc := hg c t hc
              cases h2 : typeInternal env (lookupOps env (ops env n) c) t cts with
              | ok b =>
                rw [h2] at h
                cases b with
                | none => cases h; exact ⟨hgc.1, hgc.2, fun _ _ h => by cases h⟩
                | some u =>
                  simp only at h
                  split at h
                  · cases h; exact ⟨hgc.1, hgc.2, fun _ _ h => by cases h⟩
                  · next h3 =>
                    obtain ⟨m, g1, g2⟩ := internal_sound hc hq hEt hch h1 h2
                    have hsy := nonSym_ne hs
                    obtain ⟨k1, k2⟩ := faithful_cons hgc.1 hsy (typeResult_of hs g1 g2 h3) fun s hs => by
                      obtain ⟨w, hw⟩ := hch s hs
                      exact ⟨w, hgc.2 _ _ hw⟩
                    have hex : Extends env c ((t, u) :: grow c t) := Extends.trans hgc.2 k2
                    obtain ⟨l1, l2, l3⟩ := typeLoop_sound hg hEr k1 (quotesKnown_extends hq hex) h
                    exact ⟨l1, hex.trans l2, hlast (by rw [find_cons hsy, if_pos rfl]) h l2 l3⟩
              | _ => rw [h2] at h; cases h
          | _ => rw [h1] at h; cases h

/-- every term that was visited has its type in the table, or is larger -/
def OpenVisit (env : Env) (V : List Term) (c : TypeCache) (t : Term) : Prop := ∀ v ∈ V, c.find env v = none → t.size < v.size

/-- the loop removes the term `t` with its type `ty` -/
def Pops (env : Env) (grow : TypeCache → Term → TypeCache) (n : Nat) (E t ty : Term) : Prop :=
  ∀ rest V c ret, Faithful env c → QuotesKnown env c E → OpenVisit env V c t → ∃ k V' c', Faithful env c' ∧ Extends env c c' ∧ c'.find env t = some ty ∧
    (∀ v ∈ V, v ∈ V') ∧ (∀ v ∈ V', v ∈ V ∨ ∃ u, c'.find env v = some u) ∧
    ∀ f, typeLoop env (ops env n) grow (f + k) (t :: rest) V c ret = typeLoop env (ops env n) grow f rest V' c' (some ty)

theorem pops_list {env : Env} {grow : TypeCache → Term → TypeCache} {n : Nat} {E : Term} (rest : List Term) : ∀ (l V : List Term) (c : TypeCache) (ret : Option Term), Faithful env c →
    QuotesKnown env c E → (∀ s ∈ l, ∃ ty, Pops env grow n E s ty) → (∀ s ∈ l, OpenVisit env V c s) → ∃ k V' c' ret', Faithful env c' ∧ Extends env c c' ∧
    (∀ s ∈ l, ∃ u, c'.find env s = some u) ∧ (∀ v ∈ V, v ∈ V') ∧ (∀ v ∈ V', v ∈ V ∨ ∃ u, c'.find env v = some u) ∧
    ∀ f, typeLoop env (ops env n) grow (f + k) (l ++ rest) V c ret = typeLoop env (ops env n) grow f rest V' c' ret'
  | [], V, c, ret, hc, _, _, _ => ⟨0, V, c, ret, hc, .refl _ _, by simp, fun _ h => h, fun _ h => .inl h, fun _ => rfl⟩
  | s :: l, V, c, ret, hc, hq, hp, hi => by
    obtain ⟨ty, hs⟩ := hp s (by simp)
    obtain ⟨k, V1, c1, h1, h2, h3, h4, h5, h6⟩ := hs (l ++ rest) V c ret hc hq (hi s (by simp))
    obtain ⟨j, V2, c2, ret2, g1, g2, g3, g4, g5, g6⟩ := pops_list rest l V1 c1 (some ty) h1 (quotesKnown_extends hq h2) (fun x hx => hp x (by simp [hx])) fun x hx v hv hn => by
      rcases h5 v hv with hv | ⟨u, hu⟩
      · refine hi x (by simp [hx]) v hv ?_
        cases h : c.find env v with
        | none => rfl
        | some u => rw [h2 _ _ h] at hn; cases hn
      · rw [hu] at hn; cases hn
    refine ⟨j + k, V2, c2, ret2, g1, h2.trans g2, fun x hx => ?_, fun v hv => g4 v (h4 v hv), fun v hv => ?_, fun f => ?_⟩
    · rcases List.mem_cons.1 hx with rfl | hx
      · exact ⟨ty, g2 _ _ h3⟩
      · exact g3 x hx
    · rcases g5 v hv with hv | h
      · rcases h5 v hv with h | ⟨u, hu⟩
        · exact .inl h
        · exact .inr ⟨u, g2 _ _ hu⟩
      · exact .inr h
    · rw [← Nat.add_assoc, List.cons_append, h6, g6]

theorem pops_of {env : Env} {grow : TypeCache → Term → TypeCache} (hg : Growing env grow) {n : Nat} {E : Term} : ∀ (t : Term) {m : Nat} {ty : Term}, Sub t E → m ≤ n →
    (ops env m).getType t = .ok (some ty) → Pops env grow n E t ty := by
  intro t
  induction t using Term.induct' with
  | h t ih =>
  intro m ty hE hm h rest V c ret hc hq hi
  cases hf : c.find env t with
  | some u =>
    have := TypeResult.det (hc.typed _ _ hf) ⟨m, h⟩
    cases this
    exact ⟨1, V, c, hc, .refl _ _, hf, fun _ h => h, fun _ h => .inl h, fun f => by rw [typeLoop_cons, hf]⟩
  | none =>
    have hs : nonSym t = true := by
      cases t with
      | sym k i =>
        exfalso
        cases m with
        | zero => cases h
        | succ m =>
          have h : (Out.ok (env.symType (.sym k i)) : Out (Option Term)) = .ok (some ty) := h
          cases h1 : env.symType (.sym k i) with
          | none => rw [h1] at h; cases h
          | some u => simp [TypeCache.find, h1] at hf
      | _ => rfl
    obtain ⟨j, cts, hj, e1, e2, e3⟩ := typeResult_inv hs h
    have hV : t ∉ V := fun hv => by have := hi t hv hf; omega
    obtain ⟨k, V1, c1, ret1, g1, g2, g3, g4, g5, g6⟩ := pops_list (n := n) (grow := grow) (t :: rest) t.children.reverse (t :: V) c ret hc hq (fun s hs => by
        obtain ⟨u, hu⟩ := typesOf_types e1 s (by simpa using hs)
        exact ⟨u, ih s (by simpa using hs) (m := j) (child_sub hE (by simpa using hs)) (by omega) hu⟩) (fun s hs v hv hn => by
        have hlt := size_child_lt (show s ∈ t.children by simpa using hs)
        rcases List.mem_cons.1 hv with rfl | hv
        · exact hlt
        · have := hi v hv hn; omega)
    have hfirst : ∀ f, typeLoop env (ops env n) grow (f + k + 1) (t :: rest) V c ret = typeLoop env (ops env n) grow f (t :: rest) V1 c1 ret1 := fun f => by
      rw [typeLoop_cons, hf, ← g6 f]
      simp only [hs, Bool.true_eq_false, if_false, hV, not_false_eq_true, if_true]
    have hq1 := quotesKnown_extends hq g2
    cases hf1 : c1.find env t with
    | some u =>
      have := TypeResult.det (g1.typed _ _ hf1) ⟨m, h⟩
      cases this
      refine ⟨k + 2, V1, c1, g1, g2, hf1, fun v hv => g4 v (by simp [hv]), fun v hv => ?_, fun f => ?_⟩
      · rcases g5 v hv with hv | h
        · rcases List.mem_cons.1 hv with rfl | hv
          · exact .inr ⟨_, hf1⟩
          · exact .inl hv
        · exact .inr h
      · rw [show f + (k + 2) = f + 1 + k + 1 by omega, hfirst, typeLoop_cons, hf1]
    | none =>
      have hch : ∀ s ∈ t.children, ∃ u, c1.find env s = some u := fun s hs => g3 s (by simpa using hs)
      obtain ⟨i1, i2⟩ := internal_complete g1 hq1 hE hch (show j ≤ n by omega) e1 e2
      have hgc := hg c1 t g1
      have hsy := nonSym_ne hs
      obtain ⟨k1, k2⟩ := faithful_cons hgc.1 hsy (⟨m, h⟩ : TypeResult env t (some ty)) fun s hs => by
        obtain ⟨w, hw⟩ := hch s hs
        exact ⟨w, hgc.2 _ _ hw⟩
      have hex : Extends env c1 ((t, ty) :: grow c1 t) := Extends.trans hgc.2 k2
      refine ⟨k + 2, V1, (t, ty) :: grow c1 t, k1, g2.trans hex, by rw [find_cons hsy, if_pos rfl], fun v hv => g4 v (by simp [hv]), fun v hv => ?_, fun f => ?_⟩
      · rcases g5 v hv with hv | ⟨u, hu⟩
        · rcases List.mem_cons.1 hv with rfl | hv
          · exact .inr ⟨ty, by rw [find_cons hsy, if_pos rfl]⟩
          · exact .inl hv
        · exact .inr ⟨u, hex _ _ hu⟩
      · rw [show f + (k + 2) = f + 1 + k + 1 by omega, hfirst, typeLoop_cons, hf1]
        have ht : t ∈ V1 := g4 t (by simp)
        simp only [hs, Bool.true_eq_false, if_false, ht, not_true_eq_false, i1, Out.bind, i2, if_neg e3]

end Ethos.Props
