import Verif.Lemmas.BaseExample
import Verif.Props.History
import Verif.Lemmas.TypeCache
/-
C71: types do not depend on the entries of the table of types.
-/
namespace Ethos.Props
open Ethos Kind Spec

/-- the empty table is faithful: the types of constants, variables and parameters are given -/
theorem faithful_nil (env : Env) : Faithful env [] := by
  constructor
  · intro t ty h
    cases t with
    | sym k i => exact ⟨1, congrArg Out.ok h⟩
    | lit l => simp [TypeCache.find] at h
    | node k cs => simp [TypeCache.find] at h
  · intro t ty h s hs
    cases t with
    | sym k i => cases hs
    | lit l => cases hs
    | node k cs => simp [TypeCache.find] at h

section
variable {env : Env} {grow : TypeCache → Term → TypeCache} (hg : Growing env grow) {c : TypeCache} (hc : Faithful env c)
  {e : Term} (hq : QuotesKnown env c e)
include hg hc hq

/-- **C71** A type found with a faithful table is the type found without, and a term for which none is found has none; the table stays
faithful, no entry is changed, and the term has its entry. -/
theorem C71_sound_partial {n f : Nat} {r : Option Term} {c' : TypeCache} (h : cachedType env (ops env n) grow f e c = .ok (r, c')) :
    (∀ ty, r = some ty → TypeResult env e (some ty) ∧ c'.find env e = some ty) ∧ (r = none → ∀ ty, ¬TypeResult env e (some ty)) ∧
    Faithful env c' ∧ ∀ s ty, c.find env s = some ty → c'.find env s = some ty := by
  obtain ⟨h1, h2, h3⟩ := typeLoop_sound (E := e) hg (fun s hs => by cases List.mem_singleton.1 hs; exact .refl _) hc hq h
  refine ⟨fun ty hr => ?_, fun hr ty hty => ?_, h1, h2⟩
  · have := h3 e ty hr rfl
    exact ⟨h1.typed _ _ this, this⟩
  · obtain ⟨m, hm⟩ := hty
    obtain ⟨k, V', c1, _, _, _, _, _, g⟩ := pops_of hg (n := max m n) (E := e) e (.refl _) (Nat.le_max_left m n) hm [] [] c none hc hq (fun v hv => by cases hv)
    have g := g f
    have mono := typeLoop_mono env grow (Nat.le_max_right m n) (f := f) (f' := f + k) [e] [] c none (by omega)
    have := mono.ok h
    rw [g] at this
    subst hr
    cases f <;> cases this

/-- **C71** A term with a type has it found, with every faithful table. -/
theorem C71_complete_partial {ty : Term} (h : TypeResult env e (some ty)) :
    ∃ n f, ∀ n' ≥ n, ∀ f' ≥ f, ∃ c', cachedType env (ops env n') grow f' e c = .ok (some ty, c') := by
  obtain ⟨m, hm⟩ := h
  obtain ⟨k, V', c1, _, _, _, _, _, g⟩ := pops_of hg (n := m) (E := e) e (.refl _) (Nat.le_refl m) hm [] [] c none hc hq (fun v hv => by cases hv)
  refine ⟨m, k, fun n' hn f' hf => ⟨c1, ?_⟩⟩
  refine (typeLoop_mono env grow hn (f := 0 + k) (f' := f') [e] [] c none (by omega)).ok ?_
  rw [g 0]
  rfl

end

/-- the tables that come about by requests for types, with any bounds -/
inductive Filled (env : Env) (grow : TypeCache → Term → TypeCache) : TypeCache → Prop
  | empty : Filled env grow []
  | request (n f : Nat) (e : Term) (r : Option Term) (c c' : TypeCache) : Filled env grow c → QuotesKnown env [] e →
    cachedType env (ops env n) grow f e c = .ok (r, c') → Filled env grow c'

theorem find_nil_extends (env : Env) (c : TypeCache) : Extends env [] c := by
  intro s ty h
  cases s with
  | sym k i => exact h
  | lit l => simp [TypeCache.find] at h
  | node k cs => simp [TypeCache.find] at h

theorem filled_faithful {env : Env} {grow : TypeCache → Term → TypeCache} (hg : Growing env grow) {c : TypeCache} (h : Filled env grow c) : Faithful env c := by
  induction h with
  | empty => exact faithful_nil env
  | request n f e r c c' _ hq hr ih => exact (C71_sound_partial hg ih (quotesKnown_extends hq (find_nil_extends env c)) hr).2.2.1

/-- **C71** The answers to two requests for the type of a term are the same, whatever requests came before each. -/
theorem C71_history_partial {env : Env} {grow : TypeCache → Term → TypeCache} (hg : Growing env grow) {c1 c2 : TypeCache} (h1 : Filled env grow c1) (h2 : Filled env grow c2)
    {e : Term} (hq : QuotesKnown env [] e) {n1 f1 n2 f2 : Nat} {r1 r2 : Option Term} {c1' c2' : TypeCache}
    (a1 : cachedType env (ops env n1) grow f1 e c1 = .ok (r1, c1')) (a2 : cachedType env (ops env n2) grow f2 e c2 = .ok (r2, c2')) : r1 = r2 := by
  have s1 := C71_sound_partial hg (filled_faithful hg h1) (quotesKnown_extends hq (find_nil_extends env c1)) a1
  have s2 := C71_sound_partial hg (filled_faithful hg h2) (quotesKnown_extends hq (find_nil_extends env c2)) a2
  cases r1 with
  | some u =>
    have t1 := (s1.1 u rfl).1
    cases r2 with
    | some v => exact TypeResult.det t1 (s2.1 v rfl).1
    | none => exact absurd t1 (s2.2.1 rfl u)
  | none =>
    cases r2 with
    | some v => exact absurd (s2.1 v rfl).1 (s1.2.1 rfl v)
    | none => rfl

/-! ### The hypotheses are met -/

/-- evaluation that makes no entries -/
theorem growing_const (env : Env) : Growing env (fun c _ => c) := fun _ _ h => ⟨h, fun _ _ h => h⟩

/-- `(c true)` for a constant whose result type is computed by a program: `f` is declared only, so that the type is `Type` -/
def staleCmds : List Cmd := [fwdCmd, .declareParam (nm "c") [⟨nm "b", .bool, []⟩] (ap "eo::ite" [ap "eo::is_ok" [ap "f" [sy "b"]], .bool, .type]) [] ]
def staleTerm : Term := .node APPLY [.sym CONST 13, boolVal true]

/-- the request for its type, with an empty table, and the request after it -/
example : (exRun staleCmds).map (fun st => cachedType (st.env exB) (ops (st.env exB) 40) (fun c _ => c) 10 staleTerm []) =
    .ok (.ok (some tType, [(staleTerm, tType), (boolVal true, tBool)])) := by decide +kernel
example : (exRun staleCmds).map (fun st => cachedType (st.env exB) (ops (st.env exB) 0) (fun c _ => c) 1 staleTerm [(staleTerm, tType), (boolVal true, tBool)]) =
    .ok (.ok (some tType, [(staleTerm, tType), (boolVal true, tBool)])) := by decide +kernel

theorem sub_stale {t : Term} (h : Sub t staleTerm) : t = staleTerm ∨ t = .sym CONST 13 ∨ t = boolVal true := by
  cases h with
  | refl => exact .inl rfl
  | child _ _ _ hx h =>
    rcases List.mem_cons.1 hx with rfl | hx
    · cases h; exact .inr (.inl rfl)
    · cases List.mem_singleton.1 hx
      cases h; exact .inr (.inr rfl)

/-- the quoted parameter of the type of `c` has a type from the start -/
theorem stale_known {st : State} (h : exRun staleCmds = .ok st) : QuotesKnown (st.env exB) [] staleTerm := by
  have h1 : ∀ {α : Type} (g : State → α) (x : α), (exRun staleCmds).map g = .ok x → g st = x := fun g x hx => by
    rw [h] at hx
    exact Run.ok.inj hx
  have t1 : TypeResult (st.env exB) staleTerm (some tType) := ⟨40, h1 (fun st => (ops (st.env exB) 40).getType staleTerm) _ (by decide +kernel)⟩
  have t2 : TypeResult (st.env exB) (boolVal true) (some tBool) := ⟨1, h1 (fun st => (ops (st.env exB) 1).getType (boolVal true)) _ (by decide +kernel)⟩
  have t3 : (st.env exB).symType (.sym PARAM 12) = some tBool := h1 (fun st => (st.env exB).symType (.sym PARAM 12)) _ (by decide +kernel)
  have t4 : ((st.env exB).symType (.sym CONST 13)).map (fun ty => ty.children.filterMap fun a => if a.kind = QUOTE_TYPE then a.children[0]? else none) = some [.sym PARAM 12] :=
    h1 (fun st => ((st.env exB).symType (.sym CONST 13)).map (fun ty => ty.children.filterMap fun a => if a.kind = QUOTE_TYPE then a.children[0]? else none)) _
      (by decide +kernel)
  intro t ty q ht hty hq
  obtain ⟨a, ha, hk, h0⟩ := hq
  rcases sub_stale ht with rfl | rfl | rfl
  · cases TypeResult.det t1 hty
    cases ha
  · cases hs : (st.env exB).symType (.sym CONST 13) with
    | none => rw [hs] at t4; cases t4
    | some u =>
      have : TypeResult (st.env exB) (.sym CONST 13) (some u) := ⟨1, congrArg Out.ok hs⟩
      cases TypeResult.det this hty
      rw [hs] at t4
      have hm : q ∈ [Term.sym PARAM 12] := by
        rw [← Option.some.inj t4]
        exact List.mem_filterMap.2 ⟨a, ha, by rw [if_pos hk, h0]⟩
      cases List.mem_singleton.1 hm
      exact .inl ⟨_, t3⟩
  · cases TypeResult.det t2 hty
    cases ha

/-- the theorems apply to it: whatever requests came before, the answer is `Type` -/
example {st : State} (h : exRun staleCmds = .ok st) {c c' : TypeCache} (hc : Filled (st.env exB) (fun c _ => c) c) {n f : Nat} {r : Option Term}
    (ha : cachedType (st.env exB) (ops (st.env exB) n) (fun c _ => c) f staleTerm c = .ok (r, c')) : r = some tType := by
  have h1 := congrArg (Run.map fun st => cachedType (st.env exB) (ops (st.env exB) 40) (fun c _ => c) 10 staleTerm []) h
  rw [show (exRun staleCmds).map (fun st => cachedType (st.env exB) (ops (st.env exB) 40) (fun c _ => c) 10 staleTerm []) =
    .ok (.ok (some tType, [(staleTerm, tType), (boolVal true, tBool)])) by decide +kernel] at h1
  exact C71_history_partial (growing_const _) hc .empty (stale_known h) ha (Run.ok.inj h1).symm

/-- **C71** does not hold across the definition of a declared program: an entry that was made before is kept, although the type is now another. -/
theorem C71_definition_refuted : ∃ st st' e ty ty' c, exRun staleCmds = .ok st ∧ exec exB 10 st defCmd = .ok st' ∧
    cachedType (st.env exB) (ops (st.env exB) 40) (fun c _ => c) 10 e [] = .ok (some ty, c) ∧
    (∀ n f grow, cachedType (st'.env exB) (ops (st'.env exB) n) grow (f + 1) e c = .ok (some ty, c)) ∧
    TypeResult (st'.env exB) e (some ty') ∧ ty ≠ ty' := by
  have hr : ((exRun staleCmds).bind fun st => (exec exB 10 st defCmd).map fun st' =>
      (cachedType (st.env exB) (ops (st.env exB) 40) (fun c _ => c) 10 staleTerm [], (ops (st'.env exB) 60).getType staleTerm)) =
    .ok (.ok (some tType, [(staleTerm, tType), (boolVal true, tBool)]), .ok (some tBool)) := by decide +kernel
  cases h1 : exRun staleCmds with
  | ok st =>
    rw [h1] at hr
    simp only [Run.bind] at hr
    cases h2 : exec exB 10 st defCmd with
    | ok st' =>
      rw [h2] at hr
      have hr := Run.ok.inj hr
      refine ⟨st, st', staleTerm, tType, tBool, _, rfl, h2, (Prod.ext_iff.1 hr).1, fun n f grow => ?_, ⟨60, (Prod.ext_iff.1 hr).2⟩, by decide⟩
      cases f <;> rfl
    | _ => rw [h2] at hr; cases hr
  | _ => rw [h1] at hr; cases hr

end Ethos.Props
