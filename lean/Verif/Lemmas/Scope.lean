import Verif.Spec.Scope
/-
The symbol table refines the stack of scopes.
-/
namespace Ethos.Props
open Ethos Ethos.Spec

/-- the bindings of `n` in `l` (latest first), oldest first -/
def candsOf (l : List Binding) (n : Name) : List Term := ((l.filter fun b => b.1 = n).map (·.2)).reverse
def lookupIn (l : List Binding) (n : Name) : Option Term := (l.find? (fun b => b.1 = n)).map (·.2)

/-- names of the bindings of `l` that have an older binding in `l` or `g` -/
def ovNames : List Binding → List Binding → List Name
  | [], _ => []
  | b :: l, g => if (lookupIn (l ++ g) b.1).isSome then b.1 :: ovNames l g else ovNames l g

/-- the sizes recorded when each scope was opened -/
def sizes : List (List Binding) → List Nat
  | [] => []
  | _ :: r => r.flatten.length :: sizes r

/-- the table holds the bindings `l` of the open scopes and `g` -/
structure Holds (s : Scope) (l g : List Binding) : Prop where
  sym : ∀ n, s.sym n = lookupIn (l ++ g) n
  ov : ∀ n, s.ov n = if 2 ≤ (candsOf (l ++ g) n).length then candsOf (l ++ g) n else []
  decls : s.decls = l.map (·.1)
  oDecls : s.oDecls = ovNames l g

structure Refines (s : Scope) (a : Stack) : Prop where
  holds : Holds s a.scopes.flatten a.globals
  ctx : s.ctx = sizes a.scopes

theorem candsOf_cons (b : Binding) (l : List Binding) (n : Name) :
    candsOf (b :: l) n = if b.1 = n then candsOf l n ++ [b.2] else candsOf l n := by
  by_cases h : b.1 = n <;> simp [candsOf, h]

theorem lookupIn_cons (b : Binding) (l : List Binding) (n : Name) :
    lookupIn (b :: l) n = if b.1 = n then some b.2 else lookupIn l n := by
  by_cases h : b.1 = n <;> simp [lookupIn, h]

theorem lookupIn_cands (l : List Binding) (n : Name) : lookupIn l n = (candsOf l n).getLast? := by
  induction l with
  | nil => rfl
  | cons b l ih =>
    rw [lookupIn_cons, candsOf_cons]
    by_cases h : b.1 = n <;> simp [h, ih]

theorem lookupIn_none {l : List Binding} {n : Name} : lookupIn l n = none ↔ candsOf l n = [] := by
  rw [lookupIn_cands]; simp

theorem ovNames_mem {l g : List Binding} {n : Name} (h : n ∈ ovNames l g) : (lookupIn (l ++ g) n).isSome := by
  induction l with
  | nil => simp [ovNames] at h
  | cons b l ih =>
    rw [List.cons_append, lookupIn_cons]
    by_cases hb : b.1 = n
    · simp [hb]
    · rw [if_neg hb]
      simp only [ovNames] at h
      split at h
      · rcases List.mem_cons.1 h with rfl | h
        · exact absurd rfl hb
        · exact ih h
      · exact ih h

theorem sizes_nil {l : List (List Binding)} : sizes l = [] ↔ l = [] := by
  cases l <;> simp [sizes]

/-- a new binding at the top of the list -/
theorem bind_ov {l : List Binding} {n : Name} {t old : Term} {ov : List Term} (hl : lookupIn l n = some old)
    (ho : ov = if 2 ≤ (candsOf l n).length then candsOf l n else []) :
    (if ov = [] then [old] else ov) ++ [t] = candsOf l n ++ [t] := by
  rw [lookupIn_cands] at hl
  match hc : candsOf l n with
  | [] => rw [hc] at hl; simp at hl
  | [x] => rw [hc] at hl ho; simp at hl ho; simp [ho, hl]
  | x :: y :: r => rw [hc] at ho; simp at ho; simp [ho]

theorem bind_holds {s : Scope} {l g : List Binding} (h : Holds s l g) (hc : s.ctx ≠ []) (n : Name) (t : Term) :
    Holds (s.bind n t) ((n, t) :: l) g := by
  have hn := h.sym n
  refine ⟨fun m => ?_, fun m => ?_, ?_, ?_⟩
  · rw [List.cons_append, lookupIn_cons]
    simp only [Scope.bind]
    by_cases hm : m = n
    · simp [hm]
    · simp only [hm, if_false, Ne.symm hm]
      split <;> exact h.sym m
  · rw [List.cons_append, candsOf_cons]
    simp only [Scope.bind]
    split
    · rename_i h0
      have h0' := lookupIn_none.1 (hn.symm.trans h0)
      by_cases hm : n = m
      · subst hm; simp [h.ov, h0']
      · simp only [hm, if_false]; exact h.ov m
    · rename_i old h0
      have h0' := hn.symm.trans h0
      by_cases hm : n = m
      · subst hm
        simp only [if_true]
        rw [bind_ov h0' (h.ov n), if_pos]
        have : candsOf (l ++ g) n ≠ [] := fun e => by rw [lookupIn_none.2 e] at h0'; cases h0'
        have := List.length_pos_iff.2 this
        simp; omega
      · simp only [Ne.symm hm, hm, if_false]; exact h.ov m
  · simp only [Scope.bind, hc, if_false, List.map_cons]
    split <;> simp [h.decls]
  · simp only [Scope.bind, hc, if_false, ovNames]
    rw [← hn]
    split <;> rename_i h0 <;> simp [h0, h.oDecls]

theorem bind_holds_global {s : Scope} {g : List Binding} (h : Holds s [] g) (hc : s.ctx = []) (n : Name) (t : Term) :
    Holds (s.bind n t) [] ((n, t) :: g) := by
  -- the table is that of the same binding in a scope, except for the declarations to revert
  have h1 : Holds { s with ctx := [0] } [] g := ⟨h.sym, h.ov, h.decls, h.oDecls⟩
  have h2 := bind_holds h1 (by simp) n t
  refine ⟨fun m => ?_, fun m => ?_, ?_, ?_⟩
  · have := h2.sym m
    simp only [Scope.bind, List.cons_append, List.nil_append] at this ⊢
    rw [← this]
    cases s.sym n <;> rfl
  · have := h2.ov m
    simp only [Scope.bind, List.cons_append, List.nil_append] at this ⊢
    rw [← this]
    cases s.sym n <;> rfl
  · simp only [Scope.bind, hc, if_true, List.map_nil]
    split <;> exact h.decls
  · simp only [Scope.bind, hc, if_true, ovNames]
    split <;> exact h.oDecls

theorem undo_holds {s : Scope} {b : Binding} {l g : List Binding} (h : Holds s (b :: l) g) :
    ∃ s', s.undo = .ok s' ∧ Holds s' l g ∧ s'.ctx = s.ctx ∧ s'.mark = s.mark := by
  obtain ⟨n, t⟩ := b
  have hd : s.decls = n :: l.map (·.1) := h.decls
  have ho : s.oDecls = if (lookupIn (l ++ g) n).isSome then n :: ovNames l g else ovNames l g := h.oDecls
  have hs : ∀ m, s.sym m = if n = m then some t else lookupIn (l ++ g) m := fun m => by
    rw [h.sym m, List.cons_append, lookupIn_cons]
  have hv : ∀ m, s.ov m = if 2 ≤ (if n = m then candsOf (l ++ g) m ++ [t] else candsOf (l ++ g) m).length
      then (if n = m then candsOf (l ++ g) m ++ [t] else candsOf (l ++ g) m) else [] := fun m => by
    rw [h.ov m, List.cons_append, candsOf_cons]
  cases hl : lookupIn (l ++ g) n with
  | none =>
    have hc := lookupIn_none.1 hl
    rw [hl] at ho; simp at ho
    have hne : s.oDecls.head? ≠ some n := fun e => by
      have : n ∈ ovNames l g := by rw [← ho]; exact List.mem_of_head? e
      have := ovNames_mem this
      rw [hl] at this; cases this
    refine ⟨{ s with sym := fun m => if m = n then none else s.sym m, decls := l.map (·.1) },
      by simp only [Scope.undo, hd, hne, if_false], ⟨fun m => ?_, fun m => ?_, rfl, ho⟩, rfl, rfl⟩
    · by_cases hm : m = n
      · simp [hm, hl]
      · simp [hm, hs m, Ne.symm hm]
    · by_cases hm : n = m
      · subst hm; simp [hv n, hc]
      · simp [hv m, hm]
  | some old =>
    have hne : candsOf (l ++ g) n ≠ [] := fun e => by rw [lookupIn_none.2 e] at hl; cases hl
    have hpos := List.length_pos_iff.2 hne
    have hlast := (lookupIn_cands (l ++ g) n).symm.trans hl
    rw [hl] at ho; simp at ho
    have hvn : s.ov n = candsOf (l ++ g) n ++ [t] := by
      rw [hv n]; simp; intro e; exact absurd e hne
    refine ⟨{ s with
      oDecls := s.oDecls.tail
      sym := fun m => if m = n then some old else s.sym m
      ov := fun m => if m = n then (if (s.ov n).dropLast.length = 1 then [] else (s.ov n).dropLast) else s.ov m
      decls := l.map (·.1) }, ?_, ⟨fun m => ?_, fun m => ?_, rfl, by simp [ho]⟩, rfl, rfl⟩
    · simp only [Scope.undo, hd]
      rw [if_pos (by simp [ho])]
      have e1 : s.sym n = some t := by simp [hs n]
      have e2 : (s.ov n).dropLast.getLast? = some old := by rw [hvn]; simp [hlast]
      rw [e1, e2]
    · by_cases hm : m = n
      · subst hm; simp [hl]
      · simp [hm, hs m, Ne.symm hm]
    · by_cases hm : m = n
      · subst hm
        simp only [if_true, hvn, List.dropLast_concat]
        split
        · rw [if_neg (by omega)]
        · rw [if_pos (by omega)]
      · simp [hv m, hm, Ne.symm hm]

theorem undoN_holds {l0 l g : List Binding} : ∀ {s : Scope}, Holds s (l0 ++ l) g →
    ∃ s', Scope.undoN l0.length s = .ok s' ∧ Holds s' l g ∧ s'.ctx = s.ctx ∧ s'.mark = s.mark := by
  induction l0 with
  | nil => exact fun {s} h => ⟨s, rfl, h, rfl, rfl⟩
  | cons b l0 ih =>
    intro s h
    obtain ⟨s1, e1, h1, c1, m1⟩ := undo_holds h
    obtain ⟨s2, e2, h2, c2, m2⟩ := ih h1
    exact ⟨s2, by simp [Scope.undoN, e1, Run.bind, e2], h2, c2.trans c1, m2.trans m1⟩

theorem refines_init : Refines Scope.init Stack.empty :=
  ⟨⟨fun _ => rfl, fun _ => rfl, rfl, rfl⟩, rfl⟩

theorem refines_bind {s : Scope} {a : Stack} (h : Refines s a) (n : Name) (t : Term) :
    Refines (s.bind n t) (a.bind n t) := by
  have hctx : (s.bind n t).ctx = s.ctx := by
    simp only [Scope.bind]; split <;> rfl
  obtain ⟨sc, g⟩ := a
  cases sc with
  | nil => exact ⟨bind_holds_global h.holds h.ctx n t, hctx.trans h.ctx⟩
  | cons x r =>
    refine ⟨?_, hctx.trans h.ctx⟩
    have := bind_holds h.holds (by rw [h.ctx]; simp [sizes]) n t
    simpa [Stack.bind] using this

theorem refines_push {s : Scope} {a : Stack} (h : Refines s a) :
    Refines s.push { a with scopes := [] :: a.scopes } := by
  refine ⟨⟨?_, ?_, ?_, ?_⟩, ?_⟩
  · simpa [Scope.push] using h.holds.sym
  · simpa [Scope.push] using h.holds.ov
  · simpa [Scope.push] using h.holds.decls
  · simpa [Scope.push] using h.holds.oDecls
  · simp only [Scope.push, sizes, h.ctx, h.holds.decls, List.length_map]

theorem resize_self (l : List Name) : Scope.resize l l.length = l := by simp [Scope.resize]

theorem refines_pop {s : Scope} {x : List Binding} {r : List (List Binding)} {g : List Binding}
    (h : Refines s ⟨x :: r, g⟩) : ∃ s', s.pop = .ok s' ∧ Refines s' ⟨r, g⟩ ∧ s'.mark = s.mark := by
  have hc : s.ctx = r.flatten.length :: sizes r := h.ctx
  have h1 : Holds { s with ctx := sizes r } (x ++ r.flatten) g := by
    have := h.holds
    exact ⟨by simpa using this.sym, by simpa using this.ov, by simpa using this.decls, by simpa using this.oDecls⟩
  obtain ⟨s2, e2, h2, c2, m2⟩ := undoN_holds h1
  have hlen : s.decls.length - r.flatten.length = x.length := by
    rw [h.holds.decls, List.length_map, List.flatten_cons, List.length_append]; omega
  refine ⟨s2, ?_, ⟨h2, c2⟩, m2⟩
  simp only [Scope.pop, hc, hlen, e2, Run.map]
  have : r.flatten.length = s2.decls.length := by rw [h2.decls, List.length_map]
  rw [this, resize_self]

theorem refines_pop_none {s : Scope} {g : List Binding} (h : Refines s ⟨[], g⟩) : s.pop = .err := by
  have : s.ctx = [] := h.ctx
  simp [Scope.pop, this]

/-- the table and the stack run in step -/
def Agree : Run Scope → Option Stack → Prop
  | .ok s, some a => Refines s a
  | .err, none => True
  | _, _ => False

theorem refines_step {s : Scope} {a : Stack} (h : Refines s a) (o : Scope.Op) : Agree (s.step o) (a.step o) := by
  cases o with
  | bind n t => exact refines_bind h n t
  | push => exact refines_push h
  | pop =>
    obtain ⟨sc, g⟩ := a
    cases sc with
    | nil => simp [Scope.step, Stack.step, refines_pop_none h, Agree]
    | cons x r =>
      obtain ⟨s', e, h', _⟩ := refines_pop h
      simp [Scope.step, Stack.step, e, Agree, h']

theorem refines_run (os : List Scope.Op) : ∀ {s : Scope} {a : Stack}, Refines s a →
    Agree (Scope.run os s) (Stack.run os a) := by
  induction os with
  | nil => exact fun h => h
  | cons o os ih =>
    intro s a h
    have := refines_step h o
    simp only [Scope.run, Stack.run]
    cases hs : s.step o <;> cases ha : a.step o <;> rw [hs, ha] at this <;> simp [Agree] at this
    · exact ih this
    · simp [Run.bind, Agree]

theorem run_append (os ps : List Scope.Op) (s : Scope) :
    Scope.run (os ++ ps) s = (Scope.run os s).bind (Scope.run ps) := by
  induction os generalizing s with
  | nil => rfl
  | cons o os ih =>
    simp only [List.cons_append, Scope.run]
    cases s.step o <;> simp [Run.bind, ih]

theorem srun_append (os ps : List Scope.Op) (a : Stack) :
    Stack.run (os ++ ps) a = (Stack.run os a).bind (Stack.run ps) := by
  induction os generalizing a with
  | nil => rfl
  | cons o os ih =>
    simp only [List.cons_append, Stack.run]
    cases a.step o <;> simp [ih]

/-- a balanced sequence only adds to the innermost scope -/
theorem balanced_run {os : List Scope.Op} (h : Balanced os) : ∀ (x : List Binding) (r : List (List Binding)) (g),
    ∃ y, Stack.run os ⟨x :: r, g⟩ = some ⟨(y ++ x) :: r, g⟩ := by
  induction h with
  | nil => exact fun x r g => ⟨[], rfl⟩
  | bind n t os _ ih =>
    intro x r g
    obtain ⟨y, e⟩ := ih ((n, t) :: x) r g
    exact ⟨y ++ [(n, t)], by simp [Stack.run, Stack.step, Stack.bind, e]⟩
  | scope is os _ _ ih1 ih2 =>
    intro x r g
    obtain ⟨y, e⟩ := ih1 [] (x :: r) g
    obtain ⟨z, f⟩ := ih2 x r g
    refine ⟨z, ?_⟩
    rw [List.cons_append]
    simp only [Stack.run, Stack.step, Option.bind]
    rw [srun_append, e]
    simp [Stack.run, Stack.step, f]

end Ethos.Props
