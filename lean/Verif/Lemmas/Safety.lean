import Verif.Spec.Safety
import Verif.Lemmas.Preserve
import Verif.Lemmas.EvalMono
/-
No undefined behaviour in evaluation and typing of terms whose operators have the right number of arguments.
-/
namespace Ethos.Props
open Ethos Kind Spec

/-- no undefined behaviour, and `Q` holds of the result -/
def Out.Safe {α : Type} (Q : α → Prop) : Out α → Prop
  | .ok a => Q a
  | .ub => False
  | .fuel => True

theorem Out.Safe.bind {α β : Type} {x : Out α} {f : α → Out β} {Q : α → Prop} {R : β → Prop} (h : Out.Safe Q x) (hf : ∀ a, Q a → Out.Safe R (f a)) :
    Out.Safe R (x.bind f) := by
  cases x with
  | ok a => exact hf a h
  | ub => exact h
  | fuel => trivial

theorem Out.Safe.map {α β : Type} {x : Out α} {f : α → β} {Q : α → Prop} {R : β → Prop} (h : Out.Safe Q x) (hf : ∀ a, Q a → R (f a)) :
    Out.Safe R (x.map f) := by
  cases x with
  | ok a => exact hf a h
  | ub => exact h
  | fuel => trivial

theorem Out.Safe.mono {α : Type} {x : Out α} {Q R : α → Prop} (h : Out.Safe Q x) (hf : ∀ a, Q a → R a) : Out.Safe R x := by
  cases x with
  | ok a => exact hf a h
  | ub => exact h
  | fuel => trivial

theorem Out.Safe.ne {α : Type} {x : Out α} {Q : α → Prop} (h : Out.Safe Q x) : x ≠ .ub := by
  rintro rfl; exact h

theorem Out.Safe.ok {α : Type} {x : Out α} {Q : α → Prop} {a : α} (h : Out.Safe Q x) (e : x = .ok a) : Q a := by
  subst e; exact h

theorem Out.Safe.of {α : Type} {x : Out α} {Q : α → Prop} (h : x ≠ .ub) (hq : ∀ a, x = .ok a → Q a) : Out.Safe Q x := by
  cases x with
  | ok a => exact hq a rfl
  | ub => exact absurd rfl h
  | fuel => trivial

/-- a missing result, or one that is formed as required -/
abbrev ShapedOpt (r : Option Term) : Prop := ∀ v, r = some v → Shaped v

theorem _root_.Ethos.Spec.Shaped.parts {t : Term} (h : Shaped t) : ∀ c ∈ t.children, Shaped c := by
  cases h with
  | sym => simp [Term.children]
  | lit => simp [Term.children]
  | node k cs _ h => exact h

theorem _root_.Ethos.Spec.Shaped.formed {t : Term} (h : Shaped t) (hl : ∀ l, t ≠ .lit l) : Formed t.kind t.children.length := by
  cases h with
  | sym _ _ h => exact h
  | lit l => exact absurd rfl (hl l)
  | node k cs h _ => exact h

theorem _root_.Ethos.Spec.Formed.of {k : Kind} {n : Nat} (h1 : isLiteralOp k = false) (h2 : k ≠ APPLY ∧ k ≠ APPLY_OPAQUE ∧ k ≠ PROOF ∧ k ≠ QUOTE_TYPE ∧ k ≠ LAMBDA ∧ k ≠ PARAMETERIZED) :
    Formed k n where
  op h := by rw [h1] at h; cases h
  app h := by rcases h with h | h | h | h <;> simp_all
  body h := by rcases h with h | h <;> simp_all

theorem _root_.Ethos.Spec.Formed.apply {n : Nat} (h : 1 ≤ n) : Formed APPLY n where
  op h := by simp [isLiteralOp] at h
  app _ := h
  body h := by simp at h

theorem _root_.Ethos.Spec.Shaped.app2 {f a b : Term} (hf : Shaped f) (ha : Shaped a) (hb : Shaped b) : Shaped (app2 f a b) :=
  .node _ _ (.apply (by simp)) (by simpa using ⟨.node _ _ (.apply (by simp)) (by simpa using ⟨hf, ha⟩), hb⟩)

theorem shaped_any : Shaped tAny := .node _ _ (.of rfl (by simp)) (by simp)
theorem shaped_type : Shaped tType := .node _ _ (.of rfl (by simp)) (by simp)
theorem shaped_bool : Shaped tBool := .node _ _ (.of rfl (by simp)) (by simp)

/-! ### Lists -/

/-- closed under what the list operators do -/
structure AppClosed (P : Term → Prop) : Prop where
  lit : ∀ l, P (.lit l)
  app2 : ∀ {f a c : Term}, P f → P a → P c → P (app2 f a c)
  parts : ∀ {cs : List Term}, P (.node APPLY cs) → ∀ c ∈ cs, P c

theorem shaped_closed : AppClosed Shaped := ⟨.lit, .app2, fun h => h.parts⟩

section
variable {P : Term → Prop}

theorem naryLoop_keeps (G : AppClosed P) (op : Term) (l : Bool) (t : Term) (h : P t) :
    (∀ c ∈ (naryLoop op l t).1, P c) ∧ P (naryLoop op l t).2 := by
  fun_induction naryLoop op l t with
  | case1 x r1 y r2 _ cs e heq ih =>
    have h1 := G.parts h
    have h2 := G.parts (h1 _ (List.mem_cons_self ..))
    have := ih (h2 x (by simp))
    rw [heq] at this
    exact ⟨by simpa using ⟨h1 y (by simp), this.1⟩, this.2⟩
  | case2 x r1 y r2 hl cs e heq ih =>
    have h1 := G.parts h
    have h2 := G.parts (h1 _ (List.mem_cons_self ..))
    have := ih (h1 y (by simp))
    rw [heq] at this
    exact ⟨by simpa using ⟨h2 x (by simp), this.1⟩, this.2⟩
  | case3 => exact ⟨by simp, h⟩
  | case4 => exact ⟨by simp, h⟩

theorem getNAry_keeps (G : AppClosed P) {op nil : Term} {l : Bool} {t : Term} {cs : List Term} (h : P t)
    (hc : getNAryChildren op nil l t = some cs) : ∀ c ∈ cs, P c := by
  have := (naryLoop_keeps G op l t h).1
  unfold getNAryChildren at hc
  simp only at hc
  split at hc
  · cases hc
  · cases hc; exact this

theorem nthTail_keeps (G : AppClosed P) (l : Bool) : ∀ (n : Nat) (t : Term), P t → P (nthTail l n t) := by
  intro n t
  fun_induction nthTail l n t with
  | case1 => exact id
  | case2 n o x r y r2 ih =>
    intro h
    apply ih
    have h1 := G.parts h
    have h2 := G.parts (h1 _ (List.mem_cons_self ..))
    split
    · exact h2 x (by simp)
    · exact h1 y (by simp)
  | case3 => exact id

theorem prepend_keeps (G : AppClosed P) {op ret : Term} {l : Bool} {hs : List Term} (ho : P op) (hr : P ret) (hh : ∀ c ∈ hs, P c) :
    P (prependNAry op l ret hs) := by
  unfold prependNAry
  split
  · induction hs generalizing ret with
    | nil => exact hr
    | cons a hs ih => exact ih (G.app2 ho hr (hh a (by simp))) fun c hc => hh c (by simp [hc])
  · induction hs with
    | nil => exact hr
    | cons a hs ih => exact G.app2 ho (hh a (by simp)) (ih fun c hc => hh c (by simp [hc]))

theorem listErase_keeps (G : AppClosed P) {all : Bool} {op nil l x v : Term} {left : Bool} (ho : P op) (hl : P l)
    (h : listErase all op nil left l x = .val v) : P v := by
  unfold listErase at h
  split at h
  · cases h
  · rename_i hs hg
    have hh := getNAry_keeps G hl hg
    simp only at h
    split at h
    · cases h; exact hl
    · cases h
      refine prepend_keeps G ho (nthTail_keeps G _ _ _ hl) ?_
      have : ∀ c ∈ (eraseLoop x all hs 0 [] 0 0).1, P c := by
        intro c hc
        rcases eraseLoop_mem _ _ _ _ _ _ _ c hc with h | h
        · cases h
        · exact hh c h
      intro c hc
      split at hc
      · exact this c (List.mem_of_mem_take hc)
      · exact this c hc

theorem listSetOf_keeps (G : AppClosed P) {op nil l v : Term} {left : Bool} (ho : P op) (hl : P l)
    (h : listSetOf op nil left l = .val v) : P v := by
  unfold listSetOf at h
  split at h
  · cases h
  · rename_i hs hg
    have hh := getNAry_keeps G hl hg
    simp only at h
    split at h
    · cases h; exact hl
    · cases h
      refine prepend_keeps G ho (nthTail_keeps G _ _ _ hl) ?_
      intro c hc
      rcases setOfLoop_mem _ _ _ _ _ _ c (List.mem_of_mem_take hc) with h | h
      · cases h
      · exact hh c h

theorem listDiffInter_keeps (G : AppClosed P) {d : Bool} {op nil l l2 v : Term} {left : Bool} (ho : P op) (hn : P nil) (hl : P l)
    (h : listDiffInter d op nil left l l2 = .val v) : P v := by
  unfold listDiffInter at h
  split at h
  · cases h
  · rename_i hs hg
    have hh := getNAry_keeps G hl hg
    split at h
    · cases h
    · split at h
      · cases h
        split
        · exact hn
        · exact hl
      · simp only at h
        split at h
        · cases h; exact hl
        · cases h
          refine prepend_keeps G ho (nthTail_keeps G _ _ _ hl) ?_
          intro c hc
          rcases diffLoop_mem _ _ _ _ _ _ _ c (List.mem_of_mem_take hc) with h | h
          · cases h
          · exact hh c h

theorem listMPred_keeps (G : AppClosed P) {d : Bool} {op nil l l2 v : Term} {left : Bool}
    (h : listMPred d op nil left l l2 = .val v) : P v := by
  unfold listMPred at h
  split at h
  · cases h
  · split at h
    · cases h
    · split at h
      · cases h; exact G.lit _
      · simp only at h
        split at h
        · cases h; exact G.lit _
        · repeat' split at h
          all_goals cases h; exact G.lit _

theorem evalListOp_keeps (G : AppClosed P) {k : Kind} {op nil v : Term} {left : Bool} {args : List Term} (ho : P op) (hn : P nil)
    (ha : ∀ a ∈ args, P a) (h : evalListOp k op nil left args = .val v) : P v := by
  unfold evalListOp at h
  split at h
  · simp only [Res.bind_val] at h
    obtain ⟨r, h1, h⟩ := h
    split at h
    · simp only [Res.bind_val] at h
      obtain ⟨a, h2, h⟩ := h
      cases h
      exact prepend_keeps G ho (ha _ (argAt_val h1)) (by simpa using ha _ (argAt_val h2))
    · cases h
  · simp only [Res.bind_val] at h
    obtain ⟨r, h1, h⟩ := h
    split at h
    · simp only [Res.bind_val] at h
      obtain ⟨a, h2, h⟩ := h
      split at h
      · cases h
      · rename_i hs hg
        split at h
        · cases h; exact ha _ (argAt_val h2)
        · cases h; exact prepend_keeps G ho (ha _ (argAt_val h1)) (getNAry_keeps G (ha _ (argAt_val h2)) hg)
    · cases h
  · simp only [Res.bind_val] at h
    obtain ⟨r, h1, h⟩ := h
    split at h
    · cases h
    · cases h; exact G.lit _
  · simp only [Res.bind_val] at h
    obtain ⟨i, h1, h⟩ := h
    split at h
    · split at h
      · simp only [Res.bind_val] at h
        obtain ⟨l, h2, h⟩ := h
        split at h
        · cases h
        · rename_i hs hg
          split at h
          · rename_i t ht
            cases h
            exact getNAry_keeps G (ha _ (argAt_val h2)) hg _ (List.mem_of_getElem? ht)
          · cases h
      · cases h
    · cases h
  · simp only [Res.bind_val] at h
    obtain ⟨r, h1, h⟩ := h
    split at h
    · cases h
    · simp only [Res.bind_val] at h
      obtain ⟨x, h2, h⟩ := h
      split at h <;> cases h <;> exact G.lit _
  · simp only [Res.bind_val] at h
    obtain ⟨l, h1, x, h2, h⟩ := h
    exact listErase_keeps G ho (ha _ (argAt_val h1)) h
  · simp only [Res.bind_val] at h
    obtain ⟨l, h1, x, h2, h⟩ := h
    exact listErase_keeps G ho (ha _ (argAt_val h1)) h
  · simp only [Res.bind_val] at h
    obtain ⟨l, h1, h⟩ := h
    unfold listRev at h
    split at h
    · cases h
    · rename_i hs hg
      cases h
      exact prepend_keeps G ho hn fun c hc => getNAry_keeps G (ha _ (argAt_val h1)) hg c (List.mem_reverse.1 hc)
  · simp only [Res.bind_val] at h
    obtain ⟨l, h1, h⟩ := h
    exact listSetOf_keeps G ho (ha _ (argAt_val h1)) h
  · simp only [Res.bind_val] at h
    obtain ⟨l, h1, x, h2, h⟩ := h
    exact listMPred_keeps G h
  · simp only [Res.bind_val] at h
    obtain ⟨l, h1, x, h2, h⟩ := h
    exact listMPred_keeps G h
  · simp only [Res.bind_val] at h
    obtain ⟨l, h1, x, h2, h⟩ := h
    exact listDiffInter_keeps G ho hn (ha _ (argAt_val h1)) h
  · simp only [Res.bind_val] at h
    obtain ⟨l, h1, x, h2, h⟩ := h
    exact listDiffInter_keeps G ho hn (ha _ (argAt_val h1)) h
  · simp only [Res.bind_val] at h
    obtain ⟨l, h1, h⟩ := h
    split at h
    · cases h
    · rename_i hs hg
      split at h
      · cases h; exact getNAry_keeps G (ha _ (argAt_val h1)) hg _ (by simp)
      · cases h; exact ha _ (argAt_val h1)
  · cases h
end

theorem listErase_ne (all : Bool) (op nil l x : Term) (left : Bool) : listErase all op nil left l x ≠ .ub := by
  unfold listErase; split
  · simp
  · simp only; split <;> simp
theorem listSetOf_ne (op nil l : Term) (left : Bool) : listSetOf op nil left l ≠ .ub := by
  unfold listSetOf; split
  · simp
  · simp only; split <;> simp
theorem listDiffInter_ne (d : Bool) (op nil l m : Term) (left : Bool) : listDiffInter d op nil left l m ≠ .ub := by
  unfold listDiffInter; split
  · simp
  · split
    · simp
    · split
      · simp
      · simp only; split <;> simp
theorem listMPred_ne (d : Bool) (op nil l m : Term) (left : Bool) : listMPred d op nil left l m ≠ .ub := by
  unfold listMPred; split
  · simp
  · split
    · simp
    · split
      · simp
      · simp only; repeat' split
        all_goals simp
theorem listRev_ne (op nil l : Term) (left : Bool) : listRev op nil left l ≠ .ub := by
  unfold listRev; split <;> simp

theorem length2 {α : Type} {l : List α} (h : l.length = 2) : ∃ a b, l = [a, b] := by
  match l, h with
  | [a, b], _ => exact ⟨a, b, rfl⟩
theorem length3 {α : Type} {l : List α} (h : l.length = 3) : ∃ a b c, l = [a, b, c] := by
  match l, h with
  | [a, b, c], _ => exact ⟨a, b, c, rfl⟩
theorem length1 {α : Type} {l : List α} (h : l.length = 1) : ∃ a, l = [a] := by
  match l, h with
  | [a], _ => exact ⟨a, rfl⟩

theorem evalListOp_ne {k : Kind} {op nil : Term} {left : Bool} {args : List Term} (hl : args.length = opArity k) : evalListOp k op nil left args ≠ .ub := by
  unfold evalListOp
  split
  any_goals (obtain ⟨a, b, c, rfl⟩ := length3 hl)
  any_goals (obtain ⟨a, b, rfl⟩ := length2 hl)
  all_goals try simp only [argAt, Res.bind, List.getElem?_cons_zero, List.getElem?_cons_succ]
  · split <;> simp [Res.bind]
  · cases left <;> simp only [if_true, if_false, Bool.false_eq_true, List.getElem?_cons_zero, List.getElem?_cons_succ] <;>
      (split
       · split
         · simp
         · split <;> simp
       · simp)
  · split <;> simp
  · split
    · split
      · split
        · simp
        · split <;> simp
      · simp
    · simp
  · split
    · simp
    · split <;> simp
  · apply listErase_ne
  · apply listErase_ne
  · apply listRev_ne
  · apply listSetOf_ne
  · apply listMPred_ne
  · apply listMPred_ne
  · apply listDiffInter_ne
  · apply listDiffInter_ne
  · split
    · simp
    · split <;> simp
  · simp

/-! ### Literals -/

theorem ofOpt_ne {α : Type} (f : α → Lit) (o : Option α) : Lit.ofOpt f o ≠ .ub := by
  cases o <;> simp [Lit.ofOpt]

theorem evalNary_ne (k : Kind) (a : Lit) (as : List Lit) : Lit.evalNary k a as ≠ .ub := by
  unfold Lit.evalNary
  repeat' split
  all_goals first
    | exact ofOpt_ne _ _
    | simp

/-- operators on literals have no undefined behaviour if the number of arguments is right -/
theorem evaluate_ne {k : Kind} {ls : List Lit} (hl : ls.length = opArity k) : Lit.evaluate k ls ≠ .ub := by
  match ls, hl with
  | [], hl => exfalso; unfold opArity at hl; split at hl <;> cases hl
  | a :: as, hl =>
    have h2 : ∀ {n : Nat}, n + 1 = 2 → n = 1 := by omega
    have h3 : ∀ {n : Nat}, n + 1 = 3 → n = 2 := by omega
    unfold Lit.evaluate
    simp only
    split
    · simp
    · split
      any_goals (obtain ⟨b, rfl⟩ := length1 (h2 (by simpa [opArity] using hl)))
      any_goals (obtain ⟨b, c, rfl⟩ := length2 (h3 (by simpa [opArity] using hl)))
      all_goals try exact evalNary_ne _ _ _
      all_goals try (unfold Lit.evalToString; repeat' split)
      all_goals try (repeat' split)
      all_goals simp_all

end Ethos.Props
