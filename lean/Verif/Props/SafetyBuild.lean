import Verif.Lemmas.SafetyBuild
import Verif.Props.Safety
/-
C77: no undefined behaviour when applications are built.
-/
namespace Ethos.Props
open Ethos Kind Spec Term

/-- building a term (expanding operators with attributes, choosing overloads, reducing lambdas, running programs and operators) has no
undefined behaviour if builtins are given as many arguments as they can be written with, whatever is computed and however long
that runs; the operators in the term that is built again have their number of arguments -/
theorem C77_build_partial {env : Env} (hE : BuildEnv env) {k : Kind} {cs : List Term} (h : Applied env k cs) (hc : ∀ c ∈ cs, Shaped c) (n m : Nat) :
    mkExpr env (ops env n) m k cs ≠ .ub ∧ ∀ t, mkExpr env (ops env n) m k cs = .ok t → Shaped t :=
  have h := mkExpr_safe hE n m k cs h hc
  ⟨h.ne, fun _ e => h.ok e⟩

/-- so has the list of arguments of a step or of a conclusion -/
theorem C77_list_partial {env : Env} (hE : BuildEnv env) (hl : ∀ ai, env.appInfo env.listCons = some ai → ai.kind = NONE) {args : List Term} (hc : ∀ c ∈ args, Shaped c) (n m : Nat) :
    mkList env (mkExpr env (ops env n) m) args ≠ .ub ∧ ∀ t, mkList env (mkExpr env (ops env n) m) args = .ok t → Shaped t := by
  have h : Out.Safe Shaped (mkList env (mkExpr env (ops env n) m) args) := by
    unfold mkList
    split
    · exact hE.listNil
    · exact mkExpr_safe hE n m _ _ (applied_plain hl) (mem_cons hE.listCons hc)
  exact ⟨h.ne, fun _ e => h.ok e⟩

/-- so has the type of a rule with requirements -/
theorem C77_requires_partial {env : Env} (hE : BuildEnv env) {reqs : List (Term × Term)} {ret : Term} (hr : Shaped ret) (hc : ∀ r ∈ reqs, Shaped r.1 ∧ Shaped r.2) (n m : Nat) :
    mkRequires (mkExpr env (ops env n) m) reqs ret ≠ .ub ∧ ∀ t, mkRequires (mkExpr env (ops env n) m) reqs ret = .ok t → Shaped t := by
  have h : Out.Safe Shaped (mkRequires (mkExpr env (ops env n) m) reqs ret) := by
    unfold mkRequires
    induction reqs with
    | nil => exact hr
    | cons r l ih =>
      refine (ih fun r h => hc r (by simp [h])).bind fun c h => ?_
      have := hc r (by simp)
      exact mkExpr_safe hE n m _ _ (applied_op rfl rfl) (mem3 this.1 this.2 h)
  exact ⟨h.ne, fun _ e => h.ok e⟩

/-! ### Example -/

/-- `and` with a nil, `eq` chained by `and`, two symbols with one name, the builtins `eo::not` and `->` -/
def sbAnd : Term := .sym CONST 30
def sbEq : Term := .sym CONST 31
def sbF : Term := .sym CONST 32
def sbG : Term := .sym CONST 33
def sbNot : Term := .sym CONST 34
def sbArrow : Term := .sym CONST 35
def sbEnv : Env := { safeEnv with
  symType := fun t => if t = sbAnd ∨ t = sbEq then some (mkFunctionType [tBool, tBool] tBool) else if t = sbF then some (mkFunctionType [tBool] tBool)
    else if t = sbG then some (mkFunctionType [tBool, tBool] tBool) else safeEnv.symType t
  appInfo := fun t => if t = sbAnd then some ⟨.RIGHT_ASSOC_NIL, some (.lit (.bool true)), NONE, none⟩
    else if t = sbEq then some ⟨.CHAINABLE, some sbAnd, NONE, none⟩
    else if t = sbG then some ⟨.NONE, none, NONE, some (nm "f")⟩
    else if t = sbNot then some ⟨.NONE, none, EVAL_NOT, none⟩
    else if t = sbArrow then some ⟨.NONE, none, FUNCTION_TYPE, none⟩
    else safeEnv.appInfo t
  overloads := fun x => if x = nm "f" then [sbF, sbG] else [] }

theorem sbEnv_ok : BuildEnv sbEnv where
  toShapedEnv := {
    symType := fun t ty h => by
      have hb : Shaped tBool := shaped_bool
      simp only [sbEnv] at h
      repeat' split at h
      · cases h; exact mkFunctionType_shaped (mem2 hb hb) hb
      · cases h; exact mkFunctionType_shaped (by simpa using hb) hb
      · cases h; exact mkFunctionType_shaped (mem2 hb hb) hb
      · exact safeEnv_ok.symType t ty h
    cons := fun t ai c h hc => by
      simp only [sbEnv] at h
      repeat' split at h
      · cases h; cases hc; exact .lit _
      · cases h; cases hc; exact shaped_sym (by decide)
      · cases h; cases hc
      · cases h; cases hc
      · cases h; cases hc
      · exact safeEnv_ok.cons t ai c h hc
    datatype := fun t ai h ha => by
      simp only [sbEnv] at h
      repeat' split at h
      all_goals try (cases h; cases ha)
      exact safeEnv_ok.datatype t ai h ha
    program := fun p prog h => by
      refine safeEnv_ok.program p prog ?_
      simp only [Env.program, sbEnv] at h ⊢
      split at h
      · rename_i ai hi
        repeat' split at hi
        all_goals try (cases hi; cases h)
        rw [hi]; exact h
      · cases h
    litRule := safeEnv_ok.litRule
    boundVar := safeEnv_ok.boundVar
    tmp := safeEnv_ok.tmp
    listCons := safeEnv_ok.listCons
    listNil := safeEnv_ok.listNil
    listType := safeEnv_ok.listType
    proofType := safeEnv_ok.proofType }
  combining t ai h ha := by
    simp only [sbEnv, safeEnv] at h
    repeat' split at h
    all_goals cases h
    all_goals simp only [reduceCtorEq, or_self, or_false] at ha
    refine ⟨_, rfl, by decide, fun ci h => ?_⟩
    simp only [sbEnv, if_true] at h
    cases h; rfl
  opaq t ai h ha := by
    simp only [sbEnv, safeEnv] at h
    repeat' split at h
    all_goals cases h
    all_goals cases ha
  programs p hk hc := by
    simp only [Env.constructorKind, sbEnv] at hc
    repeat' split at hc
    all_goals try exact absurd rfl hc
    rename_i ai hi
    repeat' split at hi
    all_goals try (rename_i h; subst h; cases hk)
    simp only [safeEnv] at hi
    split at hi
    · rename_i h
      exact ⟨20, h, _, by subst h; rfl⟩
    · cases hi
  overloads x t h := by
    simp only [sbEnv] at h
    split at h
    · simp only [List.mem_cons, List.not_mem_nil, or_false] at h
      rcases h with rfl | rfl <;> exact shaped_sym (by decide)
    · cases h
  dummy i ty _ := shaped_sym (by decide)

/-- an application of a builtin, a chain of three terms, the latest of two overloads and a call of the program -/
example : BuildEnv sbEnv ∧ Applied sbEnv APPLY [sbNot, .lit (.bool true)] ∧ Applied sbEnv APPLY [sbEq, .lit (.bool true), .lit (.bool false), .lit (.bool true)] ∧
    mkExpr sbEnv (ops sbEnv 30) 5 APPLY [sbNot, .lit (.bool true)] = .ok (.lit (.bool false)) ∧
    mkExpr sbEnv (ops sbEnv 30) 5 APPLY [sbEq, .lit (.bool true), .lit (.bool false), .lit (.bool true)] =
      .ok (app2 sbAnd (app2 sbEq (.lit (.bool true)) (.lit (.bool false))) (app2 sbAnd (app2 sbEq (.lit (.bool false)) (.lit (.bool true))) (.lit (.bool true)))) ∧
    mkExpr sbEnv (ops sbEnv 30) 5 APPLY [sbG, .lit (.bool true)] = .ok (.node APPLY [sbG, .lit (.bool true)]) ∧
    mkExpr sbEnv (ops sbEnv 30) 5 APPLY [safeProg, .lit (.bool true)] = .ok (.lit (.bool false)) := by
  refine ⟨sbEnv_ok, ⟨⟨by decide, by decide, by decide⟩, ?_⟩, applied_plain ?_, by decide +kernel, by decide +kernel, by decide +kernel, by decide +kernel⟩
  · intro _ hd args ai e h hk
    cases e
    have : sbEnv.appInfo sbNot = some ⟨.NONE, none, EVAL_NOT, none⟩ := rfl
    rw [this] at h; cases h
    exact ⟨by decide, by decide, by decide⟩
  · intro ai h
    have : sbEnv.appInfo sbEq = some ⟨.CHAINABLE, some sbAnd, NONE, none⟩ := rfl
    rw [this] at h; cases h; rfl

end Ethos.Props
