import Verif.Lemmas.EvalComplete
import Verif.Lemmas.Flags
import Verif.Spec.Run
/- The evaluator with its mutual recursion tied: equivalence with the big-step relation, determinism. -/
namespace Ethos.Props
open Ethos Kind Spec

section
variable {O O' : Kind → List Term → Option Term → Prop} {P : List Term → Option (Term × Ctx) → Prop}
mutual
theorem Eval.mono (h : ∀ k a r, O k a r → O' k a r) : ∀ {ctx : Ctx} {t v : Term}, Eval O P ctx t v → Eval O' P ctx t v
  | _, _, _, .bound a b c d e => .bound a b c d e
  | _, _, _, .free a b c d => .free a b c d
  | _, _, _, .leaf a b c d => .leaf a b c d
  | _, _, _, .ite a b c d e f g i => .ite a b c d e f (Eval.mono h g) (Eval.mono h i)
  | _, _, _, .iteStuck a b c d e f g i j k l => .iteStuck a b c d e f g (Eval.mono h i) j (Eval.mono h k) (Eval.mono h l)
  | _, _, _, .iteBad a b c d => .iteBad a b c d
  | _, _, _, .op a b c d e f g i j k => .op a b c d e f g i (EvalList.mono h j) (h _ _ _ k)
  | _, _, _, .opStuck a b c d e f g i j => .opStuck a b c d e f g (EvalList.mono h i) (h _ _ _ j)
  | _, _, _, .progStuck a b c d e f g i j => .progStuck a b c d e f (EvalList.mono h g) i j
  | _, _, _, .progConst a b c d e f g i j k l m => .progConst a b c d e f g i (EvalList.mono h j) k l m
  | _, _, _, .progRun a b c d e f g i j k l m n o p => .progRun a b c d e f g i j (EvalList.mono h k) l m n o (Eval.mono h p)
  | _, _, _, .app a b c d e f g i => .app a b c d e f (EvalList.mono h g) i
  | _, _, _, .other a b c d e f g i j => .other a b c d e f g i (EvalList.mono h j)
theorem EvalList.mono (h : ∀ k a r, O k a r → O' k a r) : ∀ {ctx : Ctx} {t v : List Term}, EvalList O P ctx t v →
    EvalList O' P ctx t v
  | _, _, _, .nil a => .nil a
  | _, _, _, .cons a b c d e f g => .cons a b c d e (Eval.mono h f) (EvalList.mono h g)
end
end

section
variable {O : Nat → Kind → List Term → Option Term → Prop} {P : List Term → Option (Term × Ctx) → Prop}

/-- a derivation uses finitely many operator results -/
theorem Eval.bounded_aux (hm : ∀ n m k a r, n ≤ m → O n k a r → O m k a r) : 
  (∀ {ctx : Ctx} {t v : Term}, Eval (fun k a r => ∃ n, O n k a r) P ctx t v → ∃ n, Eval (O n) P ctx t v) ∧
  (∀ {ctx : Ctx} {t v : List Term}, EvalList (fun k a r => ∃ n, O n k a r) P ctx t v → ∃ n, EvalList (O n) P ctx t v) := by
  have up : ∀ {n m : Nat} {ctx : Ctx} {t v : Term}, n ≤ m → Eval (O n) P ctx t v → Eval (O m) P ctx t v :=
    fun h => Eval.mono fun k a r => hm _ _ k a r h
  have upl : ∀ {n m : Nat} {ctx : Ctx} {t v : List Term}, n ≤ m → EvalList (O n) P ctx t v → EvalList (O m) P ctx t v :=
    fun h => EvalList.mono fun k a r => hm _ _ k a r h
  constructor
  · intro ctx t v h
    refine Eval.rec (motive_1 := fun ctx t v _ => ∃ n, Eval (O n) P ctx t v)
      (motive_2 := fun ctx t v _ => ∃ n, EvalList (O n) P ctx t v) ?_ ?_ ?_ ?_ ?_ ?_ ?_ ?_ ?_ ?_ ?_ ?_ ?_ ?_ ?_ h
    · exact fun a b c d e => ⟨0, .bound a b c d e⟩
    · exact fun a b c d => ⟨0, .free a b c d⟩
    · exact fun a b c d => ⟨0, .leaf a b c d⟩
    · rintro a b c d e f _ _ ⟨n, hn⟩ ⟨m, hm'⟩
      exact ⟨max n m, .ite a b c d e f (up (Nat.le_max_left _ _) hn) (up (Nat.le_max_right _ _) hm')⟩
    · rintro a b c d e f g _ j _ _ ⟨n, hn⟩ ⟨m, hm'⟩ ⟨p, hp⟩
      exact ⟨max n (max m p), .iteStuck a b c d e f g (up (by omega) hn) j (up (by omega) hm') (up (by omega) hp)⟩
    · exact fun a b c d => ⟨0, .iteBad a b c d⟩
    · rintro a b c d e f g i _ ⟨p, hp⟩ ⟨n, hn⟩
      exact ⟨max n p, .op a b c d e f g i (upl (by omega) hn) (hm _ _ _ _ _ (by omega) hp)⟩
    · rintro a b c d e f g _ ⟨p, hp⟩ ⟨n, hn⟩
      exact ⟨max n p, .opStuck a b c d e f g (upl (by omega) hn) (hm _ _ _ _ _ (by omega) hp)⟩
    · rintro a b c d e f _ i j ⟨n, hn⟩
      exact ⟨n, .progStuck a b c d e f hn i j⟩
    · rintro a b c d e f g i _ k l m ⟨n, hn⟩
      exact ⟨n, .progConst a b c d e f g i hn k l m⟩
    · rintro a b c d e f g i j _ l m n o _ ⟨p, hp⟩ ⟨q, hq⟩
      exact ⟨max p q, .progRun a b c d e f g i j (upl (by omega) hp) l m n o (up (by omega) hq)⟩
    · rintro a b c d e f _ i ⟨n, hn⟩
      exact ⟨n, .app a b c d e f hn i⟩
    · rintro a b c d e f g i _ ⟨n, hn⟩
      exact ⟨n, .other a b c d e f g i hn⟩
    · exact fun a => ⟨0, .nil a⟩
    · rintro a b c d e _ _ ⟨n, hn⟩ ⟨m, hm'⟩
      exact ⟨max n m, .cons a b c d e (up (by omega) hn) (upl (by omega) hm')⟩
  · intro ctx t v h
    refine EvalList.rec (motive_1 := fun ctx t v _ => ∃ n, Eval (O n) P ctx t v)
      (motive_2 := fun ctx t v _ => ∃ n, EvalList (O n) P ctx t v) ?_ ?_ ?_ ?_ ?_ ?_ ?_ ?_ ?_ ?_ ?_ ?_ ?_ ?_ ?_ h
    · exact fun a b c d e => ⟨0, .bound a b c d e⟩
    · exact fun a b c d => ⟨0, .free a b c d⟩
    · exact fun a b c d => ⟨0, .leaf a b c d⟩
    · rintro a b c d e f _ _ ⟨n, hn⟩ ⟨m, hm'⟩
      exact ⟨max n m, .ite a b c d e f (up (Nat.le_max_left _ _) hn) (up (Nat.le_max_right _ _) hm')⟩
    · rintro a b c d e f g _ j _ _ ⟨n, hn⟩ ⟨m, hm'⟩ ⟨p, hp⟩
      exact ⟨max n (max m p), .iteStuck a b c d e f g (up (by omega) hn) j (up (by omega) hm') (up (by omega) hp)⟩
    · exact fun a b c d => ⟨0, .iteBad a b c d⟩
    · rintro a b c d e f g i _ ⟨p, hp⟩ ⟨n, hn⟩
      exact ⟨max n p, .op a b c d e f g i (upl (by omega) hn) (hm _ _ _ _ _ (by omega) hp)⟩
    · rintro a b c d e f g _ ⟨p, hp⟩ ⟨n, hn⟩
      exact ⟨max n p, .opStuck a b c d e f g (upl (by omega) hn) (hm _ _ _ _ _ (by omega) hp)⟩
    · rintro a b c d e f _ i j ⟨n, hn⟩
      exact ⟨n, .progStuck a b c d e f hn i j⟩
    · rintro a b c d e f g i _ k l m ⟨n, hn⟩
      exact ⟨n, .progConst a b c d e f g i hn k l m⟩
    · rintro a b c d e f g i j _ l m n o _ ⟨p, hp⟩ ⟨q, hq⟩
      exact ⟨max p q, .progRun a b c d e f g i j (upl (by omega) hp) l m n o (up (by omega) hq)⟩
    · rintro a b c d e f _ i ⟨n, hn⟩
      exact ⟨n, .app a b c d e f hn i⟩
    · rintro a b c d e f g i _ ⟨n, hn⟩
      exact ⟨n, .other a b c d e f g i hn⟩
    · exact fun a => ⟨0, .nil a⟩
    · rintro a b c d e _ _ ⟨n, hn⟩ ⟨m, hm'⟩
      exact ⟨max n m, .cons a b c d e (up (by omega) hn) (upl (by omega) hm')⟩
end

theorem OpResult.det {env : Env} : ∀ k a r r', OpResult env k a r → OpResult env k a r' → r = r' := by
  rintro k a r r' ⟨n, h⟩ ⟨m, h'⟩
  exact ops_det env (fun o => o.evalOp k a) (fun _ _ h => h.evalOp k a) h h'

theorem ProgResult.det {env : Env} : ∀ a r r', ProgResult env a r → ProgResult env a r' → r = r' := by
  intro a r r' h h'; unfold ProgResult at h h'; rw [h] at h'; injection h'

theorem TypeResult.det {env : Env} {t : Term} {r r' : Option Term} : TypeResult env t r → TypeResult env t r' → r = r' := by
  rintro ⟨n, h⟩ ⟨m, h'⟩
  exact ops_det env (fun o => o.getType t) (fun _ _ h => h.getType t) h h'

theorem evaluatesTo_iff (env : Env) (ctx : Ctx) (t v : Term) :
    EvaluatesTo env ctx t v ↔ Eval (OpResult env) (ProgResult env) ctx t v := by
  constructor
  · rintro ⟨n, h⟩
    cases n with
    | zero => simp [ops] at h
    | succ n =>
      have := runMach_sound _ _ n _ (initMach_inv t ctx) h
      refine Eval.mono ?_ this
      intro k a r hr
      exact ⟨n, hr⟩
  · intro h
    obtain ⟨n, hn⟩ := (Eval.bounded_aux (O := fun n k a r => (ops env n).evalOp k a = .ok r)
      (fun n m k a r hnm h => ((ops_mono env hnm).evalOp k a).ok h)).1 h
    obtain ⟨m, hm⟩ := runMach_complete (O := (ops env n).evalOp) (P := evalProgram env) hn
    refine ⟨max n m + 1, ?_⟩
    exact (runMach_mono (ops_mono env (Nat.le_max_left n m)).evalOp _ m (max n m) _ (Nat.le_max_right n m)).ok hm

theorem EvaluatesTo.det {env : Env} {ctx : Ctx} {t v v' : Term} (h : EvaluatesTo env ctx t v) (h' : EvaluatesTo env ctx t v') :
    v = v' :=
  Eval.det OpResult.det ProgResult.det ((evaluatesTo_iff _ _ _ _).mp h) ((evaluatesTo_iff _ _ _ _).mp h')

/-- values are exactly the ground terms without computation -/
theorem isValue_iff (t : Term) : IsValue t ↔ t.ground = true ∧ t.evaluatable = false := by
  constructor
  · intro h
    refine ⟨(ground_iff t).mpr fun s hs => ⟨(h s hs).1, (h s hs).2.1⟩, ?_⟩
    cases hn : t.evaluatable with
    | false => rfl
    | true =>
      obtain ⟨s, hs, h1⟩ := (evaluatable_iff t).mp hn
      rcases h1 with h1 | h1
      · exact absurd h1 (h s hs).2.2
      · exact absurd h1 (h s hs).2.1
  · rintro ⟨h1, h2⟩ s hs
    have := (ground_iff t).mp h1 s hs
    refine ⟨this.1, this.2, fun hc => ?_⟩
    have := (evaluatable_iff t).mpr ⟨s, hs, .inl hc⟩
    rw [this] at h2; simp at h2

end Ethos.Props
