import Verif.Spec.Eval
import Verif.Model.Eval
import Verif.Lemmas.Term
/- Lemmas about the big-step relation and the evaluation machine. -/
namespace Ethos.Props
open Ethos Kind Spec

variable {O : Kind → List Term → Option Term → Prop} {P : List Term → Option (Term × Ctx) → Prop}

theorem boolVal_inj {a b : Bool} (h : boolVal a = boolVal b) : a = b := by
  simpa [boolVal] using h

theorem ite_isLit : isLiteralOp EVAL_IF_THEN_ELSE = true := rfl
theorem apply_notLit : isLiteralOp APPLY = false := rfl
theorem opaque_notLit : isLiteralOp APPLY_OPAQUE = false := rfl

theorem Eval.leaf_inv {ctx : Ctx} {t v : Term} (ht : t.children = []) (h : Eval O P ctx t v) :
    (IsParam t → v = (ctx.find t).getD t) ∧ (¬ IsParam t → v = t) := by
  cases h with
  | bound _ _ _ h1 h2 => exact ⟨fun _ => by rw [h2]; rfl, fun h => absurd h1 h⟩
  | free _ _ h1 h2 => exact ⟨fun _ => by rw [h2]; rfl, fun h => absurd h1 h⟩
  | leaf _ _ h1 => exact ⟨fun h => absurd h h1, fun _ => rfl⟩
  | ite => simp [Term.children] at ht
  | iteStuck => simp [Term.children] at ht
  | iteBad _ _ h1 => exact absurd ht h1
  | op _ _ _ _ _ _ _ h3 => exact absurd ht h3
  | opStuck _ _ _ _ _ _ h3 => exact absurd ht h3
  | progStuck _ _ _ _ _ _ h3 => simp only [Term.children] at ht; subst ht; cases h3
  | progConst _ _ _ _ _ _ _ _ h3 => simp only [Term.children] at ht; subst ht; cases h3
  | progRun _ _ _ _ _ _ _ _ _ h3 => simp only [Term.children] at ht; subst ht; cases h3
  | app _ _ _ _ _ _ h3 => simp only [Term.children] at ht; subst ht; cases h3
  | other _ _ _ _ _ _ _ h3 => exact absurd ht h3

mutual
theorem Eval.det (hO : ∀ k a r r', O k a r → O k a r' → r = r') (hP : ∀ a r r', P a r → P a r' → r = r') :
    ∀ {ctx t v v'}, Eval O P ctx t v → Eval O P ctx t v' → v = v'
  | _, _, _, _, .bound _ _ _ h1 h2, h => by
    rw [(Eval.leaf_inv h1.2 h).1 h1, h2]; rfl
  | _, _, _, _, .free _ _ h1 h2, h => by
    rw [(Eval.leaf_inv h1.2 h).1 h1, h2]; rfl
  | _, _, _, _, .leaf _ _ h1 h2, h => by
    rw [(Eval.leaf_inv h2 h).2 h1]
  | _, _, _, _, .ite _ c x y b v h1 h2, h => by
    cases h with
    | ite _ _ _ _ b' v' h3 h4 =>
      obtain rfl := boolVal_inj (Eval.det hO hP h1 h3)
      exact Eval.det hO hP h2 h4
    | iteStuck _ _ _ _ _ _ _ h3 h4 => exact absurd (Eval.det hO hP h1 h3).symm (h4 _)
    | _ => simp_all [IsParam, Term.children, Term.kind, isLiteralOp]
  | _, _, _, _, .iteStuck _ c x y c' x' y' h1 hn h2 h3, h => by
    cases h with
    | ite _ _ _ _ b' v' h4 h5 => exact absurd (Eval.det hO hP h1 h4) (hn _)
    | iteStuck _ _ _ _ _ _ _ h4 _ h5 h6 =>
      rw [Eval.det hO hP h1 h4, Eval.det hO hP h2 h5, Eval.det hO hP h3 h6]
    | _ => simp_all [IsParam, Term.children, Term.kind, isLiteralOp]
  | _, _, _, _, .iteBad _ cs h1 h2, h => by
    cases h <;> simp_all [IsParam, Term.children, Term.kind, isLiteralOp]
  | _, _, _, _, .op _ k cs cs' v h1 h2 h3 h4 h5, h => by
    cases h with
    | op _ _ _ _ _ _ _ _ h6 h7 =>
      obtain rfl := EvalList.det hO hP h4 h6
      exact Option.some.inj (hO _ _ _ _ h5 h7)
    | opStuck _ _ _ _ _ _ _ h6 h7 =>
      obtain rfl := EvalList.det hO hP h4 h6
      exact absurd (hO _ _ _ _ h5 h7) (by simp)
    | progStuck _ _ _ _ _ h6 => rcases h6 with rfl | rfl <;> simp [isLiteralOp] at h1
    | progConst _ _ _ _ _ _ _ h6 => rcases h6 with rfl | rfl <;> simp [isLiteralOp] at h1
    | progRun _ _ _ _ _ _ _ _ h6 => rcases h6 with rfl | rfl <;> simp [isLiteralOp] at h1
    | app _ _ _ _ _ h6 => rcases h6 with rfl | rfl <;> simp [isLiteralOp] at h1
    | _ => simp_all [IsParam, Term.children, Term.kind, isLiteralOp]
  | _, _, _, _, .opStuck _ k cs cs' h1 h2 h3 h4 h5, h => by
    cases h with
    | op _ _ _ _ _ _ _ _ h6 h7 =>
      obtain rfl := EvalList.det hO hP h4 h6
      exact absurd (hO _ _ _ _ h5 h7) (by simp)
    | opStuck _ _ _ _ _ _ _ h6 h7 =>
      obtain rfl := EvalList.det hO hP h4 h6
      rfl
    | progStuck _ _ _ _ _ h6 => rcases h6 with rfl | rfl <;> simp [isLiteralOp] at h1
    | progConst _ _ _ _ _ _ _ h6 => rcases h6 with rfl | rfl <;> simp [isLiteralOp] at h1
    | progRun _ _ _ _ _ _ _ _ h6 => rcases h6 with rfl | rfl <;> simp [isLiteralOp] at h1
    | app _ _ _ _ _ h6 => rcases h6 with rfl | rfl <;> simp [isLiteralOp] at h1
    | _ => simp_all [IsParam, Term.children, Term.kind, isLiteralOp]
  | _, _, _, _, .progStuck _ k cs p ps h1 h2 h3 h4, h => by
    cases h with
    | progStuck _ _ _ _ _ _ h5 =>
      rw [EvalList.det hO hP h2 h5]
    | progConst _ _ _ _ _ _ _ _ h5 _ h6 =>
      have e := EvalList.det hO hP h2 h5
      rw [← e] at h6; exact absurd (hP _ _ _ h4 h6) (by simp)
    | progRun _ _ _ _ _ _ _ _ _ h5 _ h6 =>
      have e := EvalList.det hO hP h2 h5
      rw [← e] at h6; exact absurd (hP _ _ _ h4 h6) (by simp)
    | app _ _ _ _ _ _ h5 h6 =>
      have e := EvalList.det hO hP h2 h5
      injection e with e1 e2; subst e1; exact absurd h3 h6
    | bound _ _ _ h5 => rcases h1 with rfl | rfl <;> simp [IsParam, Term.kind] at h5
    | free _ _ h5 => rcases h1 with rfl | rfl <;> simp [IsParam, Term.kind] at h5
    | leaf _ _ _ h5 => simp only [Term.children] at h5; subst h5; cases h2
    | op _ _ _ _ _ h5 => rcases h1 with rfl | rfl <;> simp [isLiteralOp] at h5
    | opStuck _ _ _ _ h5 => rcases h1 with rfl | rfl <;> simp [isLiteralOp] at h5
    | _ => simp_all
  | _, _, _, _, .progConst _ k cs p ps body ctx' h1 h2 h3 h4 hg, h => by
    cases h with
    | progStuck _ _ _ _ _ _ h5 _ h6 =>
      have e := EvalList.det hO hP h2 h5
      rw [← e] at h6; exact absurd (hP _ _ _ h4 h6) (by simp)
    | progConst _ _ _ _ _ _ _ _ h5 _ h6 =>
      have e := EvalList.det hO hP h2 h5
      rw [← e] at h6; have := hP _ _ _ h4 h6; simp_all
    | progRun _ _ _ _ _ _ _ _ _ h5 _ h6 h7 h8 =>
      have e := EvalList.det hO hP h2 h5
      rw [← e] at h6; have := hP _ _ _ h4 h6; simp_all
    | app _ _ _ _ _ _ h5 h6 =>
      have e := EvalList.det hO hP h2 h5
      injection e with e1 e2; subst e1; exact absurd h3 h6
    | bound _ _ _ h5 => rcases h1 with rfl | rfl <;> simp [IsParam, Term.kind] at h5
    | free _ _ h5 => rcases h1 with rfl | rfl <;> simp [IsParam, Term.kind] at h5
    | leaf _ _ _ h5 => simp only [Term.children] at h5; subst h5; cases h2
    | op _ _ _ _ _ h5 => rcases h1 with rfl | rfl <;> simp [isLiteralOp] at h5
    | opStuck _ _ _ _ h5 => rcases h1 with rfl | rfl <;> simp [isLiteralOp] at h5
    | _ => simp_all
  | _, _, _, _, .progRun _ k cs p ps body ctx' v h1 h2 h3 h4 hg hc hb, h => by
    cases h with
    | progStuck _ _ _ _ _ _ h5 _ h6 =>
      have e := EvalList.det hO hP h2 h5
      rw [← e] at h6; exact absurd (hP _ _ _ h4 h6) (by simp)
    | progConst _ _ _ _ _ _ _ _ h5 _ h6 h7 =>
      have e := EvalList.det hO hP h2 h5
      rw [← e] at h6; have := hP _ _ _ h4 h6; simp_all
    | progRun _ _ _ _ _ _ _ _ _ h5 _ h6 h7 h8 h9 =>
      have e := EvalList.det hO hP h2 h5
      rw [← e] at h6; have e2 := hP _ _ _ h4 h6
      simp only [Option.some.injEq, Prod.mk.injEq] at e2
      obtain ⟨rfl, rfl⟩ := e2
      exact Eval.det hO hP hb h9
    | app _ _ _ _ _ _ h5 h6 =>
      have e := EvalList.det hO hP h2 h5
      injection e with e1 e2; subst e1; exact absurd h3 h6
    | bound _ _ _ h5 => rcases h1 with rfl | rfl <;> simp [IsParam, Term.kind] at h5
    | free _ _ h5 => rcases h1 with rfl | rfl <;> simp [IsParam, Term.kind] at h5
    | leaf _ _ _ h5 => simp only [Term.children] at h5; subst h5; cases h2
    | op _ _ _ _ _ h5 => rcases h1 with rfl | rfl <;> simp [isLiteralOp] at h5
    | opStuck _ _ _ _ h5 => rcases h1 with rfl | rfl <;> simp [isLiteralOp] at h5
    | _ => simp_all
  | _, _, _, _, .app _ k cs p ps h1 h2 h3, h => by
    cases h with
    | progStuck _ _ _ _ _ _ h5 h6 =>
      have e := EvalList.det hO hP h2 h5
      injection e with e1 e2; subst e1; exact absurd h6 h3
    | progConst _ _ _ _ _ _ _ _ h5 h6 =>
      have e := EvalList.det hO hP h2 h5
      injection e with e1 e2; subst e1; exact absurd h6 h3
    | progRun _ _ _ _ _ _ _ _ _ h5 h6 =>
      have e := EvalList.det hO hP h2 h5
      injection e with e1 e2; subst e1; exact absurd h6 h3
    | app _ _ _ _ _ _ h5 h6 => rw [EvalList.det hO hP h2 h5]
    | bound _ _ _ h5 => rcases h1 with rfl | rfl <;> simp [IsParam, Term.kind] at h5
    | free _ _ h5 => rcases h1 with rfl | rfl <;> simp [IsParam, Term.kind] at h5
    | leaf _ _ _ h5 => simp only [Term.children] at h5; subst h5; cases h2
    | op _ _ _ _ _ h5 => rcases h1 with rfl | rfl <;> simp [isLiteralOp] at h5
    | opStuck _ _ _ _ h5 => rcases h1 with rfl | rfl <;> simp [isLiteralOp] at h5
    | _ => simp_all
  | _, _, _, _, .other _ k cs cs' h1 h2 h3 h4 h5, h => by
    cases h with
    | other _ _ _ _ _ _ _ _ h6 => rw [EvalList.det hO hP h5 h6]
    | bound _ _ _ h6 => exact absurd h6.2 h4
    | free _ _ h6 => exact absurd h6.2 h4
    | leaf _ _ _ h6 => exact absurd h6 h4
    | _ => simp_all [isLiteralOp]
theorem EvalList.det (hO : ∀ k a r r', O k a r → O k a r' → r = r') (hP : ∀ a r r', P a r → P a r' → r = r') :
    ∀ {ctx t v v'}, EvalList O P ctx t v → EvalList O P ctx t v' → v = v'
  | _, _, _, _, .nil _, h => by cases h; rfl
  | _, _, _, _, .cons _ c cs v vs h1 h2, h => by
    cases h with
    | cons _ _ _ _ _ h3 h4 => rw [Eval.det hO hP h1 h3, EvalList.det hO hP h2 h4]
end

end Ethos.Props
