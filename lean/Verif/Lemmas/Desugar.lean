import Verif.Lemmas.EvalOps
import Verif.Lemmas.Typing
import Verif.Spec.Desugar
/-
Monotonicity of `mkExpr` in its bounds.
-/
namespace Ethos.Props
open Ethos Kind Spec

variable {env : Env} {o o' : Ops}

def MkLe (mk mk' : Kind → List Term → Out Term) : Prop := ∀ k cs, Le (mk k cs) (mk' k cs)

section
variable {mk mk' : Kind → List Term → Out Term} (hm : MkLe mk mk') (ho : OpsLe o o')
include hm

theorem mkAssoc_mono (a : Attr) (hd : Term) (args : List Term) (c : Option Term) :
    Le (mkAssoc env mk a hd args c) (mkAssoc env mk' a hd args c) := by
  unfold mkAssoc
  split
  · exact .refl _
  · dsimp only
    split
    · exact .refl _
    · exact Le.ite (hm _ _).map (.refl _)

theorem combine_mono (c : Option Term) (apps : List Term) : Le (combine mk c apps) (combine mk' c apps) := by
  unfold combine
  split
  · exact .refl _
  · split
    · exact .refl _
    · exact (hm _ _).map

theorem mkApplyAttr_mono (ai : AppInfo) (hd : Term) (args : List Term) (c : Option Term) :
    Le (mkApplyAttr env mk ai hd args c) (mkApplyAttr env mk' ai hd args c) := by
  unfold mkApplyAttr
  split
  · exact mkAssoc_mono hm _ _ _ _
  · split
    · exact combine_mono hm _ _
    · exact combine_mono hm _ _
    · refine Le.map ?_
      refine Le.ite (.refl _) ?_
      split
      · exact .refl _
      · exact hm _ _
    · exact .refl _
    · exact .refl _

include ho

theorem overloadApp_mono (cs : List Term) (f : Term) : Le (overloadApp env o mk cs f) (overloadApp env o' mk' cs f) := by
  unfold overloadApp
  refine Le.map ?_
  split
  · exact .refl _
  · exact (consTerm_mono ho _ _).bind fun c => mkApplyAttr_mono hm _ _ _ _

theorem overloadLoop_mono (cs : List Term) (rt : Option Term) (ra : Bool) : ∀ fs,
    Le (overloadLoop env o mk cs rt ra fs) (overloadLoop env o' mk' cs rt ra fs)
  | [] => .refl _
  | f :: fs => by
    unfold overloadLoop
    refine (overloadApp_mono hm ho _ _).bind fun x => (ho.getType _).bind fun t => ?_
    split
    · exact Le.ite (.refl _) (overloadLoop_mono cs rt ra fs)
    · exact overloadLoop_mono cs rt ra fs

omit hm in
theorem mkPlainApp_mono (hd : Term) (args : List Term) : Le (mkPlainApp env o hd args) (mkPlainApp env o' hd args) := by
  unfold mkPlainApp
  dsimp only
  refine Le.ite ?_ (Le.ite (Le.ite ?_ (.refl _)) (.refl _))
  · refine (Le.refl _).bind fun vs => (Le.refl _).bind fun b => Le.ite (ho.evaluate _ _) (.refl _)
  · refine (ho.getType _).bind fun t => ?_
    split
    · exact .refl _
    · refine Le.ite ?_ (.refl _)
      refine (Le.refl _).bind fun r => ?_
      split
      · exact ho.evaluate _ _
      · exact .refl _

theorem mkApp_mono (hd : Term) (args : List Term) : Le (mkApp env o mk hd args) (mkApp env o' mk' hd args) := by
  unfold mkApp
  split
  · exact mkPlainApp_mono ho _ _
  · refine Le.ite ?_ ?_
    · refine Le.ite (.refl _) (Le.ite (.refl _) (hm _ _))
    · refine Le.bind ?_ fun r => ?_
      · split
        · exact .refl _
        · exact overloadLoop_mono hm ho _ _ _ _
      · split
        · exact .refl _
        · refine (consTerm_mono ho _ _).bind fun c => (mkApplyAttr_mono hm _ _ _ _).bind fun r => ?_
          split
          · exact .refl _
          · exact mkPlainApp_mono ho _ _

omit ho in
theorem mkLitOp_fold_mono (k : Kind) : ∀ (cs : List Term) (x y : Out Term), Le x y →
    Le (cs.foldl (fun curr x => curr.bind fun t => mk k [t, x]) x) (cs.foldl (fun curr x => curr.bind fun t => mk' k [t, x]) y)
  | [], _, _, h => h
  | _ :: cs, _, _, h => mkLitOp_fold_mono k cs _ _ (h.bind fun _ => hm _ _)

theorem mkLitOp_mono (k : Kind) (cs : List Term) : Le (mkLitOp o mk k cs) (mkLitOp o' mk' k cs) := by
  unfold mkLitOp
  split
  · exact mkLitOp_fold_mono hm k _ _ _ (hm _ _)
  · exact Le.ite (ho.evalOp _ _).map (.refl _)

theorem mkExprStep_mono (k : Kind) (cs : List Term) : Le (mkExprStep env o mk k cs) (mkExprStep env o' mk' k cs) := by
  unfold mkExprStep
  refine Le.ite ?_ (Le.ite (mkLitOp_mono hm ho _ _) (Le.ite ?_ (Le.ite ?_ (.refl _))))
  · split
    · exact .refl _
    · exact mkApp_mono hm ho _ _
  · split
    · exact .refl _
    · exact Le.ite (hm _ _) (.refl _)
    · exact .refl _
  · split
    · exact (overloadLoop_mono hm ho _ _ _ _).map
    · exact .refl _
end

theorem mkExpr_mono (ho : OpsLe o o') : ∀ (n m : Nat), n ≤ m → MkLe (mkExpr env o n) (mkExpr env o' m)
  | 0, _, _, _, _ => .fuel _
  | n+1, 0, h, _, _ => absurd h (by omega)
  | n+1, m+1, h, k, cs => mkExprStep_mono (mkExpr_mono ho n m (by omega)) ho k cs

theorem Builds.intro {k : Kind} {cs : List Term} {t : Term} (n m : Nat) (h : mkExpr env (ops env n) m k cs = .ok t) :
    Builds env k cs t :=
  ⟨max n m, (mkExpr_mono (ops_mono env (Nat.le_max_left n m)) m _ (Nat.le_max_right n m) k cs).ok h⟩

theorem Builds.det {k : Kind} {cs : List Term} {t t' : Term} (h : Builds env k cs t) (h' : Builds env k cs t') : t = t' := by
  obtain ⟨n, h⟩ := h
  obtain ⟨m, h'⟩ := h'
  have h1 := (mkExpr_mono (ops_mono env (Nat.le_max_left n m)) n _ (Nat.le_max_left n m) k cs).ok h
  have h2 := (mkExpr_mono (ops_mono env (Nat.le_max_right n m)) m _ (Nat.le_max_right n m) k cs).ok h'
  rw [h1] at h2
  injection h2

theorem Builds.step {k : Kind} {cs : List Term} {t : Term} :
    Builds env k cs t ↔ ∃ n, mkExprStep env (ops env n) (mkExpr env (ops env n) n) k cs = .ok t := by
  constructor
  · rintro ⟨n, h⟩
    cases n with
    | zero => simp [mkExpr] at h
    | succ n =>
      exact ⟨n+1, (mkExprStep_mono (mkExpr_mono (OpsLe.refl _) n (n+1) (by omega)) (OpsLe.refl _) k cs).ok h⟩
  · rintro ⟨n, h⟩
    exact Builds.intro n (n+1) h

end Ethos.Props
