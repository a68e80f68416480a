import Verif.Lemmas.Scope
import Verif.Model.Decl
import Verif.Props.Overload
/-
C40: closing a scope restores the symbol table.  C41: the candidates of an overloaded name.  C42: declarations are final.
C43: bound variables are canonical.
-/
namespace Ethos.Props
open Ethos Spec Kind

/-! ### C40 -/

/-- **C40**.  The symbol table is a stack of scopes: after any sequence of bindings, openings and closings of scopes, each
name resolves to its latest visible binding, and the overloads of a name bound at least twice are all its visible bindings
in order.  The sequence is rejected exactly if a scope is closed although none is open; there is never undefined
behaviour. -/
theorem C40_refines (os : List Scope.Op) :
    match Stack.run os Stack.empty with
    | some a => ∃ s, Scope.run os Scope.init = .ok s ∧ (∀ n, s.get n = a.lookup n) ∧
        ∀ n, s.ov n = if 2 ≤ (a.cands n).length then a.cands n else []
    | none => Scope.run os Scope.init = .err := by
  have h := refines_run os refines_init
  cases ha : Stack.run os Stack.empty with
  | none =>
    rw [ha] at h
    cases hs : Scope.run os Scope.init <;> rw [hs] at h <;> simp [Agree] at h ⊢
  | some a =>
    rw [ha] at h
    cases hs : Scope.run os Scope.init <;> rw [hs] at h <;> simp [Agree] at h
    rename_i s
    exact ⟨s, rfl, h.holds.sym, h.holds.ov⟩

/-- the states of the table that can be reached without `(reset)` -/
def Reachable (s : Scope) : Prop := ∃ os, Scope.run os Scope.init = .ok s

theorem reachable_refines {s : Scope} (h : Reachable s) : ∃ a, Refines s a := by
  obtain ⟨os, h⟩ := h
  have := refines_run os refines_init
  rw [h] at this
  cases ha : Stack.run os Stack.empty with
  | none => rw [ha] at this; cases this
  | some a => rw [ha] at this; exact ⟨a, this⟩

/-- **C40** (partial: starting from a state reached without `(reset)`, see `C40_reset_refuted`).  Opening a scope, any bindings and nested scopes, and closing it leave every name and the overloads of every
name as they were; nothing on the way fails. -/
theorem C40_restore_partial {s : Scope} (hs : Reachable s) {os : List Scope.Op} (hb : Balanced os) :
    ∃ s', Scope.run (.push :: os ++ [.pop]) s = .ok s' ∧ (∀ n, s'.get n = s.get n) ∧ (∀ n, s'.ov n = s.ov n) ∧
      s'.decls = s.decls ∧ s'.ctx = s.ctx ∧ s'.oDecls = s.oDecls := by
  obtain ⟨a, ha⟩ := reachable_refines hs
  obtain ⟨y, hy⟩ := balanced_run hb [] a.scopes a.globals
  have hr : Stack.run (.push :: os ++ [.pop]) a = some a := by
    rw [List.cons_append]
    simp only [Stack.run, Stack.step, Option.bind]
    rw [srun_append, hy]
    rfl
  have := refines_run (.push :: os ++ [.pop]) ha
  rw [hr] at this
  cases h : Scope.run (.push :: os ++ [.pop]) s <;> rw [h] at this <;> simp [Agree] at this
  rename_i s'
  exact ⟨s', rfl, fun n => (this.holds.sym n).trans (ha.holds.sym n).symm, fun n => (this.holds.ov n).trans (ha.holds.ov n).symm,
    this.holds.decls.trans ha.holds.decls.symm, this.ctx.trans ha.ctx.symm, this.holds.oDecls.trans ha.holds.oDecls.symm⟩

/-- non-vacuity: a name bound globally, shadowed twice in nested scopes -/
example : Reachable ((Scope.init.bind [102] tBool).bind [102] tType) :=
  ⟨[.bind [102] tBool, .bind [102] tType], rfl⟩
example : Balanced [.bind [102] tBool, .push, .bind [102] tType, .bind [103] tType, .pop, .bind [102] tType] :=
  .bind _ _ _ (.scope [.bind [102] tType, .bind [103] tType] [.bind [102] tType] (.bind _ _ _ (.bind _ _ _ .nil)) (.bind _ _ _ .nil))

/-- names bound to two terms each, whatever they are -/
def resetOps (a b : Term) : List Scope.Op := [.push, .bind [102] a, .bind [102] b]

/-- **C40** fails after `(reset)`: it clears the table but neither the overloads nor the list of overloaded declarations, so
that the end of a scope resurrects a binding made before the reset. -/
theorem C40_reset_refuted : ∃ (s0 : Scope) (n : Name) (a c : Term), Reachable s0 ∧ s0.reset.get n = none ∧
    ∃ s1, Scope.run [.push, .bind n c] s0.reset = .ok s1 ∧ s1.get n = some c ∧ ∃ s2, s1.pop = .ok s2 ∧ s2.get n = some a :=
  ⟨((Scope.init.push).bind [102] tBool).bind [102] tType, [102], tBool, tType, ⟨resetOps tBool tType, rfl⟩, rfl, _, rfl, rfl, _, rfl, rfl⟩

/-- after `(reset)` a name that is bound again twice has a wrong list of overloads: the bindings made before the reset are
candidates, and one made after it is not -/
theorem C41_reset_refuted : ∃ (s0 s1 : Scope) (n : Name) (a b c d : Term), Reachable s0 ∧ a ≠ c ∧ b ≠ c ∧ d ≠ c ∧
    Scope.run [.bind n c, .bind n d] s0.reset = .ok s1 ∧ s1.get n = some d ∧ s1.ov n = [a, b, d] := by
  refine ⟨(Scope.init.bind [102] tBool).bind [102] tType, _, [102], tBool, tType, .sym CONST 0, .sym CONST 1,
    ⟨[.bind [102] tBool, .bind [102] tType], rfl⟩, by decide, by decide, by decide, rfl, rfl, ?_⟩
  rfl

/-! ### C41 -/

/-- no term is bound under two different names -/
def OneName (os : List Scope.Op) : Prop := ∀ n m t, Scope.Op.bind n t ∈ os → Scope.Op.bind m t ∈ os → n = m

/-- every binding in `l` with an older one of the same name is marked as overloaded -/
def Marked (s : Scope) (l : List Binding) : Prop :=
  ∀ l1 b l2, l = l1 ++ b :: l2 → (lookupIn l2 b.1).isSome → s.mark b.2 = some b.1

theorem marked_bind {s : Scope} {l : List Binding} {n : Name} {t : Term} (h : Marked s l) (hs : s.sym n = lookupIn l n)
    (hone : ∀ b ∈ l, b.2 = t → b.1 = n) : Marked (s.bind n t) ((n, t) :: l) := by
  intro l1 b l2 hl ho
  cases l1 with
  | nil =>
    simp only [List.nil_append, List.cons.injEq] at hl
    obtain ⟨rfl, rfl⟩ := hl
    simp only at ho ⊢
    rw [← hs] at ho
    cases h0 : s.sym n with
    | none => rw [h0] at ho; cases ho
    | some old => simp [Scope.bind, h0]
  | cons c l1 =>
    simp only [List.cons_append, List.cons.injEq] at hl
    obtain ⟨rfl, hl⟩ := hl
    have h1 := h l1 b l2 hl ho
    have h2 := hone b (by rw [hl]; simp)
    simp only [Scope.bind]
    split
    · exact h1
    · simp only
      split
      · rename_i e; rw [h2 e]
      · exact h1

theorem marked_suffix {s : Scope} {l l' : List Binding} (h : Marked s (l ++ l')) : Marked s l' := by
  intro l1 b l2 hl ho
  exact h (l ++ l1) b l2 (by rw [hl, List.append_assoc]) ho

/-- the bindings of the stack come from the operations -/
theorem marked_run (os : List Scope.Op) : ∀ {s s' : Scope} {a : Stack} {ps : List Scope.Op}, Refines s a → Marked s a.all →
    (∀ b ∈ a.all, .bind b.1 b.2 ∈ ps) → OneName (ps ++ os) → Scope.run os s = .ok s' →
    ∃ a', Stack.run os a = some a' ∧ Refines s' a' ∧ Marked s' a'.all := by
  induction os with
  | nil =>
    intro s s' a ps hr hm _ _ h
    injection h with h
    subst h
    exact ⟨a, rfl, hr, hm⟩
  | cons o os ih =>
    intro s s' a ps hr hm hp hone h
    have hone' : OneName ((ps ++ [o]) ++ os) := by simpa using hone
    cases o with
    | bind n t =>
      have hall : (a.bind n t).all = (n, t) :: a.all := by
        obtain ⟨sc, g⟩ := a
        cases sc <;> simp [Stack.bind, Stack.all]
      refine ih (ps := ps ++ [.bind n t]) (refines_bind hr n t) ?_ ?_ hone' h
      · rw [hall]
        refine marked_bind hm (hr.holds.sym n) fun b hb e => ?_
        have := hp b hb
        rw [e] at this
        exact hone _ _ t (List.mem_append_left _ this) (by simp)
      · intro b hb
        rw [hall] at hb
        rcases List.mem_cons.1 hb with rfl | hb
        · simp
        · exact List.mem_append_left _ (hp b hb)
    | push => exact ih (ps := ps ++ [.push]) (refines_push hr) (by
          have : Marked s.push a.all := hm
          simpa [Stack.all] using this) (fun b hb => List.mem_append_left _ (hp b (by simpa [Stack.all] using hb))) hone' h
    | pop =>
      obtain ⟨sc, g⟩ := a
      cases sc with
      | nil => simp [Scope.run, Scope.step, refines_pop_none hr, Run.bind] at h
      | cons x r =>
        obtain ⟨s1, e1, hr1, hm1⟩ := refines_pop hr
        have hs : Marked s1 (Stack.all ⟨r, g⟩) := by
          have : Marked s1 (x ++ Stack.all ⟨r, g⟩) := by
            intro l1 b l2 hl ho
            rw [hm1]
            exact hm l1 b l2 (by rw [← hl]; simp [Stack.all]) ho
          exact marked_suffix this
        refine ih (ps := ps ++ [.pop]) hr1 hs (fun b hb => List.mem_append_left _ (hp b ?_)) hone' ?_
        · simp only [Stack.all, List.flatten_cons, List.append_assoc, List.mem_append] at hb ⊢
          exact .inr hb
        · simpa [Scope.run, Scope.step, e1, Run.bind] using h

/-- **C41** (partial: no term is bound under two names, and no `(reset)`).  The candidates for a name bound more than once
are its visible bindings, oldest first; an application of the name is resolved among these (`C41_latest_partial`). -/
theorem C41_candidates_partial {os : List Scope.Op} {s : Scope} {a : Stack} {env : Env} {n : Name} {t : Term} (hone : OneName os)
    (hs : Scope.run os Scope.init = .ok s) (ha : Stack.run os Stack.empty = some a)
    (hov : env.overloads = s.ov) (hm : ∀ t, (env.appInfo t).bind (·.overload) = s.mark t)
    (hk : ∀ ai, env.appInfo t = some ai → ai.kind = NONE)
    (hn : s.get n = some t) (h2 : 2 ≤ (a.cands n).length) : Overloaded env t (a.cands n) := by
  obtain ⟨a', e, hr, hM⟩ := marked_run (ps := []) os refines_init (fun l1 b l2 h => by
    have : (Stack.all Stack.empty) = [] := rfl
    rw [this] at h; cases l1 <;> cases h) (fun b hb => by cases hb) (by simpa using hone) hs
  rw [ha] at e
  injection e with e
  subst e
  -- the latest binding of `n`
  have hl : lookupIn a.all n = some t := (hr.holds.sym n).symm.trans hn
  have key : ∀ l : List Binding, lookupIn l n = some t → 2 ≤ (candsOf l n).length →
      ∃ l1 l2, l = l1 ++ (n, t) :: l2 ∧ (lookupIn l2 n).isSome := by
    intro l
    induction l with
    | nil => intro h; simp [lookupIn] at h
    | cons b l ih =>
      intro h h'
      rw [lookupIn_cons] at h
      rw [candsOf_cons] at h'
      split at h
      · rename_i hb
        injection h with h
        refine ⟨[], l, by obtain ⟨b1, b2⟩ := b; simp at hb h; simp [hb, h], ?_⟩
        rw [if_pos hb] at h'
        cases h0 : lookupIn l n with
        | none => rw [lookupIn_none.1 h0] at h'; simp at h'
        | some _ => rfl
      · rename_i hb
        rw [if_neg hb] at h'
        obtain ⟨l1, l2, rfl, h3⟩ := ih h h'
        exact ⟨b :: l1, l2, rfl, h3⟩
  obtain ⟨l1, l2, e, h3⟩ := key a.all hl h2
  have hmark := hM l1 (n, t) l2 e h3
  have hmt := hm t
  rw [hmark] at hmt
  cases hi : env.appInfo t with
  | none => rw [hi] at hmt; cases hmt
  | some ai =>
    rw [hi] at hmt
    refine ⟨ai, n, hi, hk ai hi, hmt, ?_⟩
    rw [hov]
    exact (hr.holds.ov n).trans (if_pos h2)

/-- non-vacuity: `f` bound to two constants, the environment of the example of `C41_latest_partial` -/
example : Overloaded (exOvEnv false) ovF2 [ovF1, ovF2] := by
  refine C41_candidates_partial (os := [.bind [102] ovF1, .bind [102] ovF2]) (s := (Scope.init.bind [102] ovF1).bind [102] ovF2)
    (a := ⟨[], [([102], ovF2), ([102], ovF1)]⟩) (n := [102]) ?_ rfl rfl ?_ ?_ ?_ rfl (by decide)
  · intro n m t h1 h2
    simp at h1 h2
    rcases h1 with ⟨rfl, _⟩ | ⟨rfl, _⟩ <;> rcases h2 with ⟨rfl, _⟩ | ⟨rfl, _⟩ <;> rfl
  · funext n
    by_cases h : n = [102] <;> simp [exOvEnv, Scope.bind, Scope.init, h]
  · intro t
    by_cases h : t = ovF2
    · subst h; rfl
    · by_cases h' : t = ovF1
      · subst h'; rfl
      · simp [exOvEnv, Scope.bind, Scope.init, h, h']
  · intro ai h; injection h with h; subst h; rfl

/-- **C41** fails if a term is bound under two names.  `f` is bound to `f1`, `g` to `f2`, and then `f` to `f2` as well:
although `g` has a single binding, an application of `g` may denote an application of `f1`. -/
theorem C41_alias_refuted : ∃ (os : List Scope.Op) (s : Scope) (a : Stack) (env : Env) (g : Name) (f1 f2 : Term) (args : List Term) (x : Term),
    Scope.run os Scope.init = .ok s ∧ Stack.run os Stack.empty = some a ∧ env.overloads = s.ov ∧
    (∀ t, (env.appInfo t).bind (·.overload) = s.mark t) ∧ a.cands g = [f2] ∧ f1 ≠ f2 ∧ Curry f1 args x ∧ args ≠ [] ∧ Denotes env f2 args x := by
  refine ⟨[.bind [102] ovF1, .bind [103] ovF2, .bind [102] ovF2], ((Scope.init.bind [102] ovF1).bind [103] ovF2).bind [102] ovF2,
    _, exOvEnv false, [103], ovF1, ovF2, [ovA, ovA], bin ovF1 ovA ovA, rfl, rfl, ?_, ?_, rfl, by decide, (curry_iff _ _ _).mpr rfl, by simp, ⟨30, rfl⟩⟩
  · funext n
    by_cases h : n = [102] <;> by_cases h' : n = [103] <;> simp [exOvEnv, Scope.bind, Scope.init, h, h']
  · intro t
    by_cases h : t = ovF2
    · subst h; rfl
    · by_cases h' : t = ovF1
      · subst h'; rfl
      · simp [exOvEnv, Scope.bind, Scope.init, h, h']

/-! ### C42 -/

theorem decls_step {any : Term} {d d' : Decls} {o : Decls.Op} (h : d.step any o = .ok d') :
    (∀ v ai, d.info v = some ai → ai.attr ≠ .NONE → d'.info v = some ai) ∧
    (∀ k t, d.litRule k = some t → d'.litRule k = some t) ∧ (∀ n r, d.rules n = some r → d'.rules n = some r) := by
  have hmark : ∀ v a c w ai, d.info w = some ai → ai.attr ≠ .NONE → (d.markConstructorKind v a c).1.info w = some ai := by
    intro v a c w ai hw ha
    simp only [Decls.markConstructorKind]
    split
    · exact hw
    · rename_i hn
      by_cases hv : w = v
      · subst hv
        rw [hw] at hn
        simp [ha] at hn
      · simp [hv, hw]
  have hrest : ∀ v a c, (d.markConstructorKind v a c).1.litRule = d.litRule ∧ (d.markConstructorKind v a c).1.rules = d.rules := by
    intro v a c
    simp only [Decls.markConstructorKind]
    split <;> exact ⟨rfl, rfl⟩
  cases o with
  | mark v a c =>
    injection h with h; subst h
    exact ⟨hmark v a c, by rw [(hrest v a c).1]; exact fun _ _ => id, by rw [(hrest v a c).2]; exact fun _ _ => id⟩
  | program v p =>
    injection h with h; subst h
    cases p with
    | none => exact ⟨fun _ _ h _ => h, fun _ _ => id, fun _ _ => id⟩
    | some p => exact ⟨hmark v _ _, by simp only [Decls.defineProgram]; rw [(hrest v _ _).1]; exact fun _ _ => id,
        by simp only [Decls.defineProgram]; rw [(hrest v _ _).2]; exact fun _ _ => id⟩
  | setLit k t =>
    simp only [Decls.step, Decls.setLiteralTypeRule] at h
    split at h
    · split at h
      · split at h
        · injection h with h; subst h; exact ⟨fun _ _ h _ => h, fun _ _ => id, fun _ _ => id⟩
        · cases h
      · rename_i hk
        injection h with h; subst h
        refine ⟨fun _ _ h _ => h, fun j u hj => ?_, fun _ _ => id⟩
        by_cases e : j = k
        · subst e; rw [hk] at hj; cases hj
        · simp [e, hj]
    · cases h
  | useLit k =>
    simp only [Decls.step, Decls.getOrSetLiteralTypeRule] at h
    split at h
    · split at h
      · injection h with h; subst h; exact ⟨fun _ _ h _ => h, fun _ _ => id, fun _ _ => id⟩
      · rename_i hk
        injection h with h; subst h
        refine ⟨fun _ _ h _ => h, fun j u hj => ?_, fun _ _ => id⟩
        by_cases e : j = k
        · subst e; rw [hk] at hj; cases hj
        · simp [e, hj]
    · cases h
  | rule n r =>
    simp only [Decls.step, Decls.bindRule] at h
    split at h
    · cases h
    · rename_i hn
      injection h with h; subst h
      refine ⟨fun _ _ h _ => h, fun _ _ => id, fun m u hm => ?_⟩
      by_cases e : m = n
      · subst e; rw [hn] at hm; cases hm
      · simp [e, hm]

theorem decls_run {any : Term} (os : List Decls.Op) : ∀ {d d' : Decls}, Decls.run any os d = .ok d' →
    (∀ v ai, d.info v = some ai → ai.attr ≠ .NONE → d'.info v = some ai) ∧
    (∀ k t, d.litRule k = some t → d'.litRule k = some t) ∧ (∀ n r, d.rules n = some r → d'.rules n = some r) := by
  induction os with
  | nil => intro d d' h; injection h with h; subst h; exact ⟨fun _ _ h _ => h, fun _ _ => id, fun _ _ => id⟩
  | cons o os ih =>
    intro d d' h
    simp only [Decls.run] at h
    cases h1 : d.step any o <;> rw [h1] at h <;> simp [Run.bind] at h
    rename_i d1
    obtain ⟨a1, a2, a3⟩ := decls_step h1
    obtain ⟨b1, b2, b3⟩ := ih h
    exact ⟨fun v ai hv ha => b1 v ai (a1 v ai hv ha) ha, fun k t hk => b2 k t (a2 k t hk), fun n r hn => b3 n r (a3 n r hn)⟩

/-- **C42**.  The attribute of a constant (with its argument) never changes once it has one. -/
theorem C42_attribute {any : Term} {os : List Decls.Op} {d d' : Decls} {v : Term} {ai : AppInfo} (h : Decls.run any os d = .ok d')
    (hv : d.info v = some ai) (ha : ai.attr ≠ .NONE) : d'.info v = some ai := (decls_run os h).1 v ai hv ha

/-- **C42**.  The definition of a program never changes. -/
theorem C42_program {any : Term} {os : List Decls.Op} {d d' : Decls} {v p : Term} (h : Decls.run any os d = .ok d')
    (hv : d.getProgram v = some p) : d'.getProgram v = some p := by
  simp only [Decls.getProgram] at hv
  split at hv
  · rename_i ai hi
    split at hv
    · rename_i ha
      have := C42_attribute h hi (by rw [ha]; decide)
      simp [Decls.getProgram, this, ha, hv]
    · cases hv
  · cases hv

/-- **C42**.  The type rule of a category of literals never changes, whether it was declared or assumed by default. -/
theorem C42_literals {any : Term} {os : List Decls.Op} {d d' : Decls} {k : Kind} {t : Term} (h : Decls.run any os d = .ok d')
    (hk : d.litRule k = some t) : d'.litRule k = some t := (decls_run os h).2.1 k t hk

/-- **C42**.  The proof rule with a given name never changes (with the separate table for proof rules, which is the
default). -/
theorem C42_rules {any : Term} {os : List Decls.Op} {d d' : Decls} {n : Name} {r : Term} (h : Decls.run any os d = .ok d')
    (hn : d.rules n = some r) : d'.rules n = some r := (decls_run os h).2.2 n r hn

/-- a different type for literals that were already given (or have used) one is an error, a second attribute is refused, and
so is a second rule of the same name -/
theorem C42_conflict (d : Decls) : (∀ k t t', d.litRule k = some t → t' ≠ t → d.setLiteralTypeRule k t' = .err) ∧
    (∀ v a c ai, d.info v = some ai → ai.attr ≠ .NONE → d.markConstructorKind v a c = (d, false)) ∧
    (∀ n r r', d.rules n = some r → d.bindRule n r' = .err) := by
  refine ⟨fun k t t' h hne => ?_, fun v a c ai h ha => ?_, fun n r r' h => ?_⟩
  · simp only [Decls.setLiteralTypeRule, h]
    split
    · rw [if_neg (Ne.symm hne)]
    · rfl
  · simp [Decls.markConstructorKind, h, ha]
  · simp [Decls.bindRule, h]

/-- the first attribute, definition, type or rule is the one recorded, and nothing else changes -/
theorem C42_recorded (d : Decls) : (∀ v a c, (∀ ai, d.info v = some ai → ai.attr = .NONE) → ∃ ai, (d.markConstructorKind v a c).1.info v = some ai ∧
      ai.attr = a ∧ ai.cons = c ∧ (d.markConstructorKind v a c).2 = true ∧ ∀ w, w ≠ v → (d.markConstructorKind v a c).1.info w = d.info w) ∧
    (∀ v p, (∀ ai, d.info v = some ai → ai.attr = .NONE) → (d.defineProgram v (some p)).getProgram v = some p) ∧
    (∀ k t, Decls.hasTypeRule k → d.litRule k = none → ∃ d', d.setLiteralTypeRule k t = .ok d' ∧ d'.litRule k = some t ∧ ∀ j, j ≠ k → d'.litRule j = d.litRule j) ∧
    (∀ n r, d.rules n = none → ∃ d', d.bindRule n r = .ok d' ∧ d'.rules n = some r ∧ ∀ m, m ≠ n → d'.rules m = d.rules m) := by
  have h1 : ∀ v, (∀ ai, d.info v = some ai → ai.attr = .NONE) → ((d.info v).getD ⟨.NONE, none, NONE, none⟩).attr = .NONE := by
    intro v h
    cases hv : d.info v with
    | none => rfl
    | some ai => exact h ai hv
  refine ⟨fun v a c h => ?_, fun v p h => ?_, fun k t hk h => ?_, fun n r h => ?_⟩
  · simp only [Decls.markConstructorKind, h1 v h, ne_eq, not_true_eq_false, if_false, if_true]
    exact ⟨_, rfl, rfl, rfl, trivial, fun w hw => by simp [hw]⟩
  · simp [Decls.defineProgram, Decls.getProgram, Decls.markConstructorKind, h1 v h]
  · simp only [Decls.setLiteralTypeRule, hk, if_true, h]
    exact ⟨_, rfl, by simp, fun j hj => by simp [hj]⟩
  · simp only [Decls.bindRule, h]
    exact ⟨_, rfl, by simp, fun m hm => by simp [hm]⟩

def sP2 : Term := .sym PROGRAM_CONST 77
/-- non-vacuity: a declaration of each sort succeeds and is then in effect -/
example : ∃ d, Decls.run tType [.mark sP .LIST none, .program sP2 (some tBool), .setLit NUMERAL tBool, .useLit STRING, .rule [114] tType]
    ⟨fun _ => none, fun _ => none, fun _ => none⟩ = .ok d ∧ d.getProgram sP2 = some tBool ∧ d.litRule NUMERAL = some tBool ∧
    d.litRule STRING = some tType ∧ d.rules [114] = some tType ∧ (d.info sP).map (·.attr) = some .LIST :=
  ⟨_, rfl, rfl, rfl, rfl, rfl, rfl⟩

/-! ### C43 -/

/-- the cache holds distinct variables, all allocated -/
structure VarWf (c : VarCache) : Prop where
  alloc : ∀ p ∈ c.cache, ∃ i, i < c.next ∧ p.2 = Term.sym VARIABLE i
  inj : ∀ p ∈ c.cache, ∀ q ∈ c.cache, p.2 = q.2 → p.1 = q.1

/-- the requests of a history, in order -/
def requests : List VarCache.Op → List (Name × Term)
  | [] => []
  | .var n ty :: os => (n, ty) :: requests os
  | .other :: os => requests os

theorem getBoundVar_wf {c : VarCache} (h : VarWf c) (n : Name) (ty : Term) : VarWf (c.getBoundVar n ty).1 := by
  simp only [VarCache.getBoundVar]
  split
  · split
    · exact h
    · refine ⟨fun p hp => ?_, fun p hp q hq e => ?_⟩
      · rcases List.mem_cons.1 hp with rfl | hp
        · exact ⟨c.next, Nat.lt_succ_self _, rfl⟩
        · obtain ⟨i, hi, e⟩ := h.alloc p hp
          exact ⟨i, Nat.lt_succ_of_lt hi, e⟩
      · rcases List.mem_cons.1 hp with rfl | hp <;> rcases List.mem_cons.1 hq with rfl | hq
        · rfl
        · obtain ⟨i, hi, e'⟩ := h.alloc q hq
          simp only [e', Term.sym.injEq, true_and] at e; omega
        · obtain ⟨i, hi, e'⟩ := h.alloc p hp
          simp only [e', Term.sym.injEq, true_and] at e; omega
        · exact h.inj p hp q hq e
  · exact h

theorem getBoundVar_mem {c : VarCache} {n : Name} {ty : Term} (hg : ty.ground) :
    ((n, ty), (c.getBoundVar n ty).2) ∈ (c.getBoundVar n ty).1.cache := by
  simp only [VarCache.getBoundVar, hg, if_true]
  split
  · rename_i p hp
    have h1 := List.mem_of_find?_eq_some hp
    have h2 := List.find?_some hp
    simp only [decide_eq_true_eq] at h2
    simpa [← h2] using h1
  · simp

/-- a later cache: nothing is forgotten, and lookups stay the same -/
theorem getBoundVar_find {c : VarCache} (n : Name) (ty : Term) {k : Name × Term} {p : (Name × Term) × Term}
    (h : c.cache.find? (fun p => p.1 = k) = some p) : (c.getBoundVar n ty).1.cache.find? (fun p => p.1 = k) = some p := by
  simp only [VarCache.getBoundVar]
  split
  · split
    · exact h
    · rename_i hn
      simp only [List.find?_cons]
      split
      · rename_i e
        simp only [decide_eq_true_eq] at e
        subst e
        rw [hn] at h; cases h
      · exact h
  · exact h

theorem getBoundVar_found {c : VarCache} {n : Name} {ty : Term} (hg : ty.ground) :
    ∃ p, (c.getBoundVar n ty).1.cache.find? (fun p => p.1 = (n, ty)) = some p ∧ p.2 = (c.getBoundVar n ty).2 := by
  simp only [VarCache.getBoundVar, hg, if_true]
  split
  · rename_i p hp
    exact ⟨p, hp, rfl⟩
  · exact ⟨((n, ty), Term.sym VARIABLE c.next), by simp, rfl⟩

/-- the variables of a history are entries of one well-formed cache -/
theorem vars_run (os : List VarCache.Op) : ∀ (c : VarCache), VarWf c → ∃ f : VarCache, VarWf f ∧
    (∀ k p, c.cache.find? (fun p => p.1 = k) = some p → f.cache.find? (fun p => p.1 = k) = some p) ∧
    (VarCache.run os c).length = (requests os).length ∧
    ∀ (i : Nat) k, (requests os)[i]? = some k → k.2.ground → ∃ p, f.cache.find? (fun p => p.1 = k) = some p ∧ (VarCache.run os c)[i]? = some p.2 := by
  induction os with
  | nil => exact fun c h => ⟨c, h, fun _ _ => id, rfl, fun i k h => by simp [requests] at h⟩
  | cons o os ih =>
    intro c h
    cases o with
    | other =>
      obtain ⟨f, hf, h1, h2, h3⟩ := ih { c with next := c.next + 1 } ⟨fun p hp => by
        obtain ⟨i, hi, e⟩ := h.alloc p hp
        exact ⟨i, Nat.lt_succ_of_lt hi, e⟩, h.inj⟩
      exact ⟨f, hf, h1, h2, h3⟩
    | var n ty =>
      obtain ⟨f, hf, h1, h2, h3⟩ := ih _ (getBoundVar_wf h n ty)
      refine ⟨f, hf, fun k p hk => h1 k p (getBoundVar_find n ty hk), by simp [VarCache.run, requests, h2], fun i k hi hg => ?_⟩
      cases i with
      | zero =>
        simp only [requests, List.getElem?_cons_zero, Option.some.injEq] at hi
        subst hi
        obtain ⟨p, hp, e⟩ := getBoundVar_found (c := c) (n := n) hg
        exact ⟨p, h1 _ p hp, by simp [VarCache.run, e]⟩
      | succ i =>
        simp only [requests, List.getElem?_cons_succ] at hi
        obtain ⟨p, hp, e⟩ := h3 i k hi hg
        exact ⟨p, hp, by simp [VarCache.run, e]⟩

/-- **C43**.  Of the variables made in any history, starting from any state of the cache that can be reached, two with
ground types are the same term exactly if they have the same name and type; each is a symbol of kind `VARIABLE`. -/
theorem C43_canonical {os : List VarCache.Op} {c : VarCache} (hc : VarWf c) {i j : Nat} {n m : Name} {T U : Term}
    (hi : (requests os)[i]? = some (n, T)) (hj : (requests os)[j]? = some (m, U)) (hT : T.ground) (hU : U.ground) :
    ∃ x y, (VarCache.run os c)[i]? = some x ∧ (VarCache.run os c)[j]? = some y ∧ x.kind = VARIABLE ∧ (x = y ↔ n = m ∧ T = U) := by
  obtain ⟨f, hf, _, _, h⟩ := vars_run os c hc
  obtain ⟨p, hp, ep⟩ := h i _ hi hT
  obtain ⟨q, hq, eq⟩ := h j _ hj hU
  have hp1 := List.find?_some hp
  have hq1 := List.find?_some hq
  simp only [decide_eq_true_eq] at hp1 hq1
  refine ⟨p.2, q.2, ep, eq, ?_, fun e => ?_, fun ⟨e1, e2⟩ => ?_⟩
  · obtain ⟨k, _, e⟩ := hf.alloc p (List.mem_of_find?_eq_some hp)
    rw [e]; rfl
  · have := hf.inj p (List.mem_of_find?_eq_some hp) q (List.mem_of_find?_eq_some hq) e
    rw [hp1, hq1] at this
    simpa using this
  · subst e1 e2
    rw [hp] at hq
    injection hq with hq
    rw [hq]

/-- the reachable caches are well formed -/
theorem C43_reachable (n : Nat) : VarWf ⟨[], n⟩ ∧ ∀ c, VarWf c → (∀ x T, VarWf (c.getBoundVar x T).1) ∧ VarWf { c with next := c.next + 1 } :=
  ⟨⟨fun _ h => by simp at h, fun _ h => by simp at h⟩, fun c h => ⟨fun x T => getBoundVar_wf h x T, fun p hp => by
    obtain ⟨i, hi, e⟩ := h.alloc p hp
    exact ⟨i, Nat.lt_succ_of_lt hi, e⟩, h.inj⟩⟩

/-- non-vacuity: `x : Bool`, another symbol, `y : Bool`, `x : Bool` again -/
example : VarCache.run [.var [120] tBool, .other, .var [121] tBool, .var [120] tBool] ⟨[], 5⟩ =
    [.sym VARIABLE 5, .sym VARIABLE 7, .sym VARIABLE 5] := rfl

end Ethos.Props
