import Verif.Spec.Base
import Verif.Lemmas.World
/-
Terms built from given symbols.
-/
namespace Ethos.Props
open Ethos Kind Spec

/-- Terms built from the symbols in `S`, those made on the fly and proofs with `Pf`; unless `sl`, the formula of a proof is
of this form too. -/
inductive Built (b : Env) (sl : Bool) (S : Term → Prop) (Pf : List Term → Prop) : Term → Prop
  | lit (l) : Built b sl S Pf (.lit l)
  | sym (k i) : S (.sym k i) → (¬ ∃ ty, Own b (.sym k i) ty) → Built b sl S Pf (.sym k i)
  | own (v ty) : Own b v ty → Built b sl S Pf ty → Built b sl S Pf v
  | node (k cs) : k ≠ PROOF ∧ k ≠ LAMBDA ∧ isSymbol k = false → (∀ c ∈ cs, Built b sl S Pf c) → Built b sl S Pf (.node k cs)
  | lambda (cs) : (∀ c ∈ cs, Built b sl S Pf c) → (∀ vs, cs.head? = some vs → vs.kind = TUPLE) → Built b sl S Pf (.node LAMBDA cs)
  | proof (cs) : Pf cs → (sl = false → ∀ c ∈ cs, Built b sl S Pf c) → Built b sl S Pf (.node PROOF cs)

/-- symbols made on the fly are symbols -/
def OwnSym (b : Env) : Prop := ∀ v ty, Own b v ty → ∃ k i, v = .sym k i

variable {b : Env} {sl : Bool} {S S' : Term → Prop} {Pf Pf' : List Term → Prop}

theorem Built.mono (hS : ∀ t, S t → S' t) (hP : ∀ cs, Pf cs → Pf' cs) {t : Term} (h : Built b sl S Pf t) : Built b sl S' Pf' t := by
  induction h with
  | lit l => exact .lit l
  | sym k i h1 h2 => exact .sym k i (hS _ h1) h2
  | own v ty h1 _ ih => exact .own v ty h1 ih
  | node k cs hk _ ih => exact .node k cs hk ih
  | lambda cs _ h2 ih => exact .lambda cs ih h2
  | proof cs h1 _ ih => exact .proof cs (hP _ h1) ih

theorem Built.node_iff (ho : OwnSym b) {k : Kind} {cs : List Term} (hk : k ≠ PROOF ∧ k ≠ LAMBDA ∧ isSymbol k = false) :
    Built b sl S Pf (.node k cs) ↔ ∀ c ∈ cs, Built b sl S Pf c := by
  constructor
  · intro h
    generalize ht : Term.node k cs = t at h
    cases h with
    | lit l => cases ht
    | sym k i _ _ => cases ht
    | own v ty h1 h2 => subst ht; obtain ⟨k, i, h⟩ := ho _ _ h1; cases h
    | node k' cs' _ h => cases ht; exact h
    | lambda cs' h1 h2 => cases ht; simp at hk
    | proof cs' h1 h2 => cases ht; simp at hk
  · exact .node k cs hk

theorem Built.lambda_iff (ho : OwnSym b) {cs : List Term} :
    Built b sl S Pf (.node LAMBDA cs) ↔ (∀ c ∈ cs, Built b sl S Pf c) ∧ ∀ vs, cs.head? = some vs → vs.kind = TUPLE := by
  constructor
  · intro h
    generalize ht : Term.node LAMBDA cs = t at h
    cases h with
    | lit l => cases ht
    | sym k i _ _ => cases ht
    | own v ty h1 h2 => subst ht; obtain ⟨k, i, h⟩ := ho _ _ h1; cases h
    | node k' cs' hk h => cases ht; simp at hk
    | lambda cs' h1 h2 => cases ht; exact ⟨h1, h2⟩
    | proof cs' h1 h2 => cases ht
  · exact fun h => .lambda cs h.1 h.2

theorem Built.proof_iff (ho : OwnSym b) {cs : List Term} :
    Built b sl S Pf (.node PROOF cs) ↔ Pf cs ∧ (sl = false → ∀ c ∈ cs, Built b sl S Pf c) := by
  constructor
  · intro h
    generalize ht : Term.node PROOF cs = t at h
    cases h with
    | lit l => cases ht
    | sym k i _ _ => cases ht
    | own v ty h1 h2 => subst ht; obtain ⟨k, i, h⟩ := ho _ _ h1; cases h
    | node k' cs' hk h => cases ht; simp at hk
    | lambda cs' h1 h2 => cases ht
    | proof cs' h1 h2 => cases ht; exact ⟨h1, h2⟩
  · exact fun h => .proof cs h.1 h.2

theorem Built.leaf (ho : OwnSym b) {k : Kind} {cs : List Term} (h : Built b sl S Pf (.node k cs)) : isSymbol k = false := by
  generalize ht : Term.node k cs = t at h
  cases h with
  | lit l => cases ht
  | sym k i _ _ => cases ht
  | own v ty h1 h2 => subst ht; obtain ⟨k, i, h⟩ := ho _ _ h1; cases h
  | node k' cs' hk h => cases ht; exact hk.2.2
  | lambda cs' h1 h2 => cases ht; rfl
  | proof cs' h1 h2 => cases ht; rfl

/-- parameters are leaves of a built term -/
theorem Built.leaves (ho : OwnSym b) (hf : sl = false) {t : Term} (h : Built b sl S Pf t) : ParamsAreLeaves t := by
  induction h with
  | lit l => intro s hs hk; cases hs; rfl
  | sym k i _ _ => intro s hs hk; cases hs; rfl
  | own v ty h1 _ _ => obtain ⟨k, i, rfl⟩ := ho _ _ h1; intro s hs hk; cases hs; rfl
  | node k cs hk _ ih =>
    intro s hs hp
    cases hs with
    | refl => simp only [Term.kind] at hp; subst hp; simp [isSymbol] at hk
    | child _ _ _ hc hs => exact ih _ hc s hs hp
  | lambda cs _ _ ih =>
    intro s hs hp
    cases hs with
    | refl => simp [Term.kind] at hp
    | child _ _ _ hc hs => exact ih _ hc s hs hp
  | proof cs _ _ ih =>
    intro s hs hp
    cases hs with
    | refl => simp [Term.kind] at hp
    | child _ _ _ hc hs => exact ih hf _ hc s hs hp

theorem Built.sym_inv {k : Kind} {i : Nat} (h : Built b sl S Pf (.sym k i)) :
    (S (.sym k i) ∧ ¬ ∃ ty, Own b (.sym k i) ty) ∨ ∃ ty, Own b (.sym k i) ty ∧ Built b sl S Pf ty := by
  generalize ht : Term.sym k i = t at h
  cases h with
  | lit l => cases ht
  | sym k i h1 h2 => cases ht; exact .inl ⟨h1, h2⟩
  | own v ty h1 h2 => exact .inr ⟨ty, h1, h2⟩
  | node => cases ht
  | lambda => cases ht
  | proof => cases ht

theorem Built.of_basic {n : Nat} (hS : ∀ k i, i < n → k ≠ VARIABLE → S (.sym k i)) {t : Term} (h : Basic b n t) : Built b sl S Pf t := by
  induction t using Term.induct' with
  | h t ih =>
    cases t with
    | sym k i =>
      have := (h _ (.refl _)).1 k i rfl
      exact .sym k i (hS k i this.1 this.2.1) this.2.2
    | lit l => exact .lit l
    | node k cs =>
      have h0 := (h _ (.refl _)).2
      refine .node k cs ⟨h0.2.1, h0.1, h0.2.2 _ _ rfl⟩ ?_
      intro c hc
      exact ih c hc fun s hs => h s (.child _ _ _ _ hc hs)

/-- every part of the state whose terms the evaluator may see consists of built terms -/
structure BuiltState (b : Env) (st : State) (T : Term → Prop) : Prop where
  symType : ∀ k i ty, (¬ ∃ u, Own b (.sym k i) u) → T (.sym k i) → st.symType (.sym k i) = some ty → T ty
  ownType : ∀ v u ty, Own b v u → st.symType v = some ty → ty = u
  onlySym : ∀ t ty, st.symType t = some ty → ∃ k i, t = .sym k i
  cons : ∀ t ai c, T t → st.decls.info t = some ai → ai.cons = some c → T c
  program : ∀ p ai prog, T p → st.decls.info p = some ai → ai.attr = .PROGRAM → ai.cons = some prog → ProgShape T prog
  kind : ∀ t ai, st.decls.info t = some ai → ai.kind ≠ PROOF ∧ ai.kind ≠ LAMBDA ∧ isSymbol ai.kind = false
  litRule : ∀ k t, st.decls.litRule k = some t → T t
  listCons : T b.listCons
  listNil : T b.listNil
  listType : T b.listType
  proofType : T b.proofType

theorem BuiltState.good {st : State} (ho : OwnSym b) (H : BuiltState b st (Built b sl S Pf))
    (hov : ∀ x t, t ∈ st.scope.ov x → Built b sl S Pf t)
    (hp : sl = true → ∀ cs, Pf cs → (Term.node PROOF cs).ground = true ∧ (Term.node PROOF cs).evaluatable = false)
    (hn : sl = false → ∀ cs, Pf cs) : Good (st.env b) (Built b sl S Pf) where
  lit := .lit
  node k cs hk := Built.node_iff ho hk
  lambda cs := Built.lambda_iff ho
  leaf k cs h := Built.leaf ho h
  proof := by
    cases sl with
    | false => exact .inl fun cs => ⟨fun h => ((Built.proof_iff ho).1 h).2 rfl, fun h => .proof cs (hn rfl cs) fun _ => h⟩
    | true => exact .inr fun cs h => hp rfl cs ((Built.proof_iff ho).1 h).1
  symType := by
    intro t ty ht h
    have h : st.symType t = some ty := h
    obtain ⟨k, i, rfl⟩ := H.onlySym t ty h
    rcases ht.sym_inv with ⟨_, h2⟩ | ⟨u, h1, h2⟩
    · exact H.symType k i ty h2 ht h
    · rw [H.ownType _ _ _ h1 h]; exact h2
  cons := by
    intro t ai c ht h hc
    have h : st.decls.appInfo st.scope.mark t = some ai := h
    cases hi : st.decls.info t with
    | none => cases hm : st.scope.mark t <;> simp [Decls.appInfo, hi, hm] at h; subst h; cases hc
    | some ai' =>
      simp only [Decls.appInfo, hi, Option.some.injEq] at h
      subst h
      exact H.cons t ai' c ht hi hc
  program := by
    intro p prog ht h
    have h : (match st.decls.appInfo st.scope.mark p with
      | some ai => if ai.attr = .PROGRAM then ai.cons else none
      | none => none) = some prog := h
    simp only [Decls.appInfo] at h
    cases hi : st.decls.info p with
    | none =>
      cases hm : st.scope.mark p <;> simp [hi, hm] at h
    | some ai =>
      simp only [hi] at h
      split at h
      · rename_i ha
        exact H.program p ai prog ht hi ha h
      · cases h
  kind := by
    intro t ai h
    have h : st.decls.appInfo st.scope.mark t = some ai := h
    cases hi : st.decls.info t with
    | none => cases hm : st.scope.mark t <;> simp [Decls.appInfo, hi, hm] at h; subst h; simp
    | some ai' =>
      simp only [Decls.appInfo, hi, Option.some.injEq] at h
      subst h
      exact H.kind t ai' hi
  overloads := hov
  litRule k t h := .inl (H.litRule k t h)
  boundVar x ty _ h := .own _ ty (.inl ⟨x, rfl⟩) h
  tmp t _ h := .own _ t (.inr (.inl rfl)) h
  listCons := H.listCons
  listNil := H.listNil
  listType := H.listType
  proofType := H.proofType

end Ethos.Props
