import Verif.Lemmas.Reader
import Verif.Lemmas.Desugar
import Verif.Model.CommandLine
/- Larger bounds never change what a run has reached: for commands given as data and for texts. -/
namespace Ethos.Props
open Ethos Kind Spec

theorem RunLe.lift {α : Type} {x y : Out α} (h : Le x y) : RunLe (Run.lift x) (Run.lift y) := by
  rcases h with rfl | rfl
  · exact .inl rfl
  · exact .inr rfl

theorem RunLe.fuel {α : Type} (y : Run α) : RunLe .fuel y := .inl rfl

/-- more steps with the same result, or an outcome that is no result yet -/
syntax "rmono_lem" : tactic
macro_rules | `(tactic| rmono_lem) => `(tactic| assumption)
syntax "rmono" : tactic
macro_rules | `(tactic| rmono) => `(tactic| repeat' (first
  | with_reducible exact RunLe.refl _
  | with_reducible exact RunLe.fuel _
  | with_reducible rmono_lem
  | with_reducible refine RunLe.bind ?_ fun _ => ?_
  | with_reducible apply RunLe.map
  | with_reducible apply RunLe.ite
  | split))

set_option linter.unusedSectionVars false
section
variable {b : Env} {n m : Nat} (h : n ≤ m)
include h

theorem build_mono (st : State) (k : Kind) (cs : List Term) : RunLe (st.build b n k cs) (st.build b m k cs) :=
  .lift (mkExpr_mono (ops_mono _ h) n m h k cs)
macro_rules | `(tactic| rmono_lem) => `(tactic| exact build_mono (by assumption) _ _ _)

theorem typeCheck_mono (st : State) (e : Term) : RunLe (st.typeCheck b n e) (st.typeCheck b m e) :=
  .bind (.lift ((ops_mono _ h).getType e)) fun _ => .refl _
macro_rules | `(tactic| rmono_lem) => `(tactic| exact typeCheck_mono (by assumption) _ _)

theorem typeCheckAs_mono (st : State) (e ty : Term) : RunLe (st.typeCheckAs b n e ty) (st.typeCheckAs b m e ty) := by
  unfold State.typeCheckAs; rmono
macro_rules | `(tactic| rmono_lem) => `(tactic| exact typeCheckAs_mono (by assumption) _ _ _)

theorem getBoundVar_mono (st : State) (x : Name) (ty : Term) : RunLe (st.getBoundVar b n x ty) (st.getBoundVar b m x ty) := by
  unfold State.getBoundVar; rmono
macro_rules | `(tactic| rmono_lem) => `(tactic| exact getBoundVar_mono (by assumption) _ _ _)

theorem checkType_mono (st : State) (a : Bool) (e : Term) : RunLe (st.checkType b n a e) (st.checkType b m a e) := by
  unfold State.checkType; rmono
macro_rules | `(tactic| rmono_lem) => `(tactic| exact checkType_mono (by assumption) _ _ _)

theorem mkBinderList_mono (st : State) (f : Term) (vs : List Term) : RunLe (st.mkBinderList b n f vs) (st.mkBinderList b m f vs) := by
  unfold State.mkBinderList; rmono
macro_rules | `(tactic| rmono_lem) => `(tactic| exact mkBinderList_mono (by assumption) _ _ _)

theorem mkPairs_mono (st : State) (c : Term) : ∀ l : List (Term × Term), RunLe (st.mkPairs b n c l) (st.mkPairs b m c l)
  | [] => .refl _
  | (v, t) :: r => by
    have := mkPairs_mono st c r
    unfold State.mkPairs; rmono
macro_rules | `(tactic| rmono_lem) => `(tactic| exact mkPairs_mono (by assumption) _ _ _)

theorem mkLetBinderList_mono (st : State) (f : Term) (l : List (Term × Term)) :
    RunLe (st.mkLetBinderList b n f l) (st.mkLetBinderList b m f l) := by
  unfold State.mkLetBinderList; rmono
macro_rules | `(tactic| rmono_lem) => `(tactic| exact mkLetBinderList_mono (by assumption) _ _ _)

mutual
theorem parseExpr_mono : ∀ (e : SExp) (st : State), RunLe (parseExpr b n e st) (parseExpr b m e st)
  | .sym x, st => by unfold parseExpr; exact .refl _
  | .lit l, st => by unfold parseExpr; exact .refl _
  | .type, st => by unfold parseExpr; exact .refl _
  | .bool, st => by unfold parseExpr; exact .refl _
  | .app x args, st => by
    have := parseList_mono args
    unfold parseExpr; rmono
    exact this _
  | .appq hd args, st => by
    have h1 := parseExpr_mono hd
    have h2 := parseList_mono args
    unfold parseExpr; rmono
    · exact h1 _
    · exact h2 _
  | .binder x xs es args, st => by
    have h1 := parseVars_mono xs es
    have h2 := parseList_mono args
    have h3 := parseLets_mono xs es
    unfold parseExpr; rmono
    · exact h1 _
    · exact h2 _
    · exact h3 _
    · exact h2 _
  | .letE xs es body, st => by
    have h1 := parseList_mono es
    have h2 := parseExpr_mono body
    unfold parseExpr; rmono
    · exact h1 _
    · exact h2 _
  | .annot e, st => by unfold parseExpr; exact parseExpr_mono e st
theorem parseList_mono : ∀ (es : List SExp) (st : State), RunLe (parseList b n es st) (parseList b m es st)
  | [], st => by unfold parseList; exact .refl _
  | e :: es, st => by
    have h1 := parseExpr_mono e
    have h2 := parseList_mono es
    unfold parseList; rmono
    · exact h1 _
    · exact h2 _
theorem parseVars_mono : ∀ (xs : List Name) (es : List SExp) (st : State), RunLe (parseVars b n xs es st) (parseVars b m xs es st)
  | x :: xs, e :: es, st => by
    have h1 := parseExpr_mono e
    have h2 := parseVars_mono xs es
    unfold parseVars; rmono
    · exact h1 _
    · exact h2 _
  | [], _, st => by unfold parseVars; exact .refl _
  | _ :: _, [], st => by unfold parseVars; exact .refl _
theorem parseLets_mono : ∀ (xs : List Name) (es : List SExp) (st : State), RunLe (parseLets b n xs es st) (parseLets b m xs es st)
  | x :: xs, e :: es, st => by
    have h1 := parseExpr_mono e
    have h2 := parseLets_mono xs es
    unfold parseLets; rmono
    · exact h1 _
    · exact h2 _
  | [], _, st => by unfold parseLets; exact .refl _
  | _ :: _, [], st => by unfold parseLets; exact .refl _
end
macro_rules | `(tactic| rmono_lem) => `(tactic| exact parseExpr_mono (by assumption) _ _)
macro_rules | `(tactic| rmono_lem) => `(tactic| exact parseList_mono (by assumption) _ _)

theorem parseType_mono (q a : Bool) (e : SExp) (st : State) : RunLe (parseType b n q a e st) (parseType b m q a e st) := by
  unfold parseType; (try dsimp only); rmono
macro_rules | `(tactic| rmono_lem) => `(tactic| exact parseType_mono (by assumption) _ _ _ _)

theorem parseTypeList_mono (q : Bool) : ∀ (l : List SExp) (st : State), RunLe (parseTypeList b n q l st) (parseTypeList b m q l st)
  | [], st => by unfold parseTypeList; exact .refl _
  | a :: r, st => by
    have ih := fun st => parseTypeList_mono q r st
    unfold parseTypeList; (try dsimp only); rmono
    all_goals exact ih _
macro_rules | `(tactic| rmono_lem) => `(tactic| exact parseTypeList_mono (by assumption) _ _ _)

theorem parseFormula_mono (e : SExp) (st : State) : RunLe (parseFormula b n e st) (parseFormula b m e st) := by
  unfold parseFormula; (try dsimp only); rmono
macro_rules | `(tactic| rmono_lem) => `(tactic| exact parseFormula_mono (by assumption) _ _)

theorem parsePairs_mono : ∀ (l : List (SExp × SExp)) (st : State), RunLe (parsePairs b n l st) (parsePairs b m l st)
  | [], st => by unfold parsePairs; exact .refl _
  | (x, y) :: r, st => by
    have ih := parsePairs_mono r
    unfold parsePairs; rmono
    exact ih _
macro_rules | `(tactic| rmono_lem) => `(tactic| exact parsePairs_mono (by assumption) _ _)

theorem paramAttrs_mono (rich : Bool) (v : Term) : ∀ (l : List PAttr) (st : State), RunLe (paramAttrs b n rich v l st) (paramAttrs b m rich v l st)
  | [], st => by unfold paramAttrs; exact .refl _
  | .list :: r, st | .implicit :: r, st | .opq :: r, st | .synt :: r, st | .restrict e :: r, st => by
    have ih := paramAttrs_mono rich v r
    unfold paramAttrs; rmono
    all_goals exact ih _
macro_rules | `(tactic| rmono_lem) => `(tactic| exact paramAttrs_mono (by assumption) _ _ _ _)

theorem bindParams_mono (rich : Bool) : ∀ (l : List SParam) (st : State), RunLe (bindParams b n rich l st) (bindParams b m rich l st)
  | [], st => by unfold bindParams; exact .refl _
  | a :: r, st => by
    have ih := fun st => bindParams_mono rich r st
    unfold bindParams; (try dsimp only); rmono
    all_goals exact ih _
macro_rules | `(tactic| rmono_lem) => `(tactic| exact bindParams_mono (by assumption) _ _ _)

theorem bindRuleParams_mono (l : List SParam) (st : State) : RunLe (bindRuleParams b n l st) (bindRuleParams b m l st) := by
  unfold bindRuleParams; (try dsimp only); rmono
macro_rules | `(tactic| rmono_lem) => `(tactic| exact bindRuleParams_mono (by assumption) _ _)

theorem parseAttr_mono (a : SAttr) (st : State) : RunLe (parseAttr b n a st) (parseAttr b m a st) := by
  unfold parseAttr; (try dsimp only); rmono
macro_rules | `(tactic| rmono_lem) => `(tactic| exact parseAttr_mono (by assumption) _ _)

theorem parseAttrList_mono  : ∀ (l : List SAttr) (st : State), RunLe (parseAttrList b n  l st) (parseAttrList b m  l st)
  | [], st => by unfold parseAttrList; exact .refl _
  | a :: r, st => by
    have ih := fun st => parseAttrList_mono  r st
    unfold parseAttrList; (try dsimp only); rmono
    all_goals exact ih _
macro_rules | `(tactic| rmono_lem) => `(tactic| exact parseAttrList_mono (by assumption) _ _)

theorem parseAttrs_mono (a : List SAttr) (st : State) : RunLe (parseAttrs b n a st) (parseAttrs b m a st) := by
  unfold parseAttrs; (try dsimp only); rmono
macro_rules | `(tactic| rmono_lem) => `(tactic| exact parseAttrs_mono (by assumption) _ _)

theorem paramTypes_mono (st : State) : ∀ (l : List (Term × SParam)) (t : Term) (op : List Term), RunLe (paramTypes b n st l t op) (paramTypes b m st l t op)
  | [], t, op => by unfold paramTypes; exact .refl _
  | (p, a) :: r, t, op => by
    have ih := paramTypes_mono st r
    unfold paramTypes; (try dsimp only); rmono
    all_goals exact ih _ _
macro_rules | `(tactic| rmono_lem) => `(tactic| exact paramTypes_mono (by assumption) _ _ _ _)

theorem mkDisambiguatedType_mono (st : State) (p r : Term) (x : Name) : RunLe (mkDisambiguatedType b n st p r x) (mkDisambiguatedType b m st p r x) := by
  unfold mkDisambiguatedType; (try dsimp only); rmono
macro_rules | `(tactic| rmono_lem) => `(tactic| exact mkDisambiguatedType_mono (by assumption) _ _ _ _)

theorem disambiguate_mono (st : State) (x : Name) (t : Term) (op : List Term) (ck : Attr) : RunLe (disambiguate b n st x t op ck) (disambiguate b m st x t op ck) := by
  unfold disambiguate; (try dsimp only); rmono
macro_rules | `(tactic| rmono_lem) => `(tactic| exact disambiguate_mono (by assumption) _ _ _ _ _)

theorem execDeclareParam_mono (st : State) (x : Name) (ps : List SParam) (r : SExp) (as : List SAttr) : RunLe (execDeclareParam b n st x ps r as) (execDeclareParam b m st x ps r as) := by
  unfold execDeclareParam; (try dsimp only); rmono
macro_rules | `(tactic| rmono_lem) => `(tactic| exact execDeclareParam_mono (by assumption) _ _ _ _ _)

theorem dtSels_mono (dt : Term) : ∀ (l : List (Name × SExp)) (st : State), RunLe (dtSels b n dt l st) (dtSels b m dt l st)
  | [], st => by unfold dtSels; exact .refl _
  | (x, e) :: r, st => by
    have ih := dtSels_mono dt r
    unfold dtSels; (try dsimp only); rmono
    all_goals exact ih _
macro_rules | `(tactic| rmono_lem) => `(tactic| exact dtSels_mono (by assumption) _ _ _)

theorem dtConsType_mono (st : State) (dt : Term) (ps ts : List Term) (x : Name) : RunLe (dtConsType b n st dt ps ts x) (dtConsType b m st dt ps ts x) := by
  unfold dtConsType; (try dsimp only); rmono
macro_rules | `(tactic| rmono_lem) => `(tactic| exact dtConsType_mono (by assumption) _ _ _ _ _)

theorem dtCtors_mono (dt : Term) (ps : List Term) : ∀ (l : List SCons) (st : State), RunLe (dtCtors b n dt ps l st) (dtCtors b m dt ps l st)
  | [], st => by unfold dtCtors; exact .refl _
  | a :: r, st => by
    have ih := fun st => dtCtors_mono dt ps r st
    unfold dtCtors; (try dsimp only); rmono
    all_goals exact ih _
macro_rules | `(tactic| rmono_lem) => `(tactic| exact dtCtors_mono (by assumption) _ _ _ _)

theorem dtBody_mono (x : Name) (pre : Option (Term × Nat)) (d : SDt) (st : State) : RunLe (dtBody b n x pre d st) (dtBody b m x pre d st) := by
  unfold dtBody; (try dsimp only); rmono
macro_rules | `(tactic| rmono_lem) => `(tactic| exact dtBody_mono (by assumption) _ _ _ _)

theorem dtBodies_mono : ∀ (l : List (Name × Term × Nat)) (ds : List SDt) (st : State), RunLe (dtBodies b n l ds st) (dtBodies b m l ds st)
  | _, [], st => by unfold dtBodies; exact .refl _
  | [], _ :: _, st => by unfold dtBodies; exact .refl _
  | (x, t) :: xs, d :: ds, st => by
    have ih := dtBodies_mono xs ds
    unfold dtBodies; (try dsimp only); rmono
    all_goals exact ih _
macro_rules | `(tactic| rmono_lem) => `(tactic| exact dtBodies_mono (by assumption) _ _ _)

theorem mkList_mono (st : State) (ts : List Term) : RunLe (st.mkList b n ts) (st.mkList b m ts) := by
  unfold State.mkList; (try dsimp only); rmono
macro_rules | `(tactic| rmono_lem) => `(tactic| exact mkList_mono (by assumption) _ _)

theorem dtMarkCons_mono : ∀ (l : List (Term × List Term × Bool)) (st : State), RunLe (dtMarkCons b n l st) (dtMarkCons b m l st)
  | [], st => by unfold dtMarkCons; exact .refl _
  | (c, s, a) :: r, st => by
    have ih := dtMarkCons_mono r
    unfold dtMarkCons; (try dsimp only); rmono
    all_goals exact ih _
macro_rules | `(tactic| rmono_lem) => `(tactic| exact dtMarkCons_mono (by assumption) _ _)

theorem dtMark_mono : ∀ (l : List (Term × List (Term × List Term × Bool))) (st : State), RunLe (dtMark b n l st) (dtMark b m l st)
  | [], st => by unfold dtMark; exact .refl _
  | (c, s) :: r, st => by
    have ih := dtMark_mono r
    unfold dtMark; (try dsimp only); rmono
    all_goals exact ih _
macro_rules | `(tactic| rmono_lem) => `(tactic| exact dtMark_mono (by assumption) _ _)

theorem dtMarkAll_mono (ds : List (Term × List (Term × List Term × Bool))) (st : State) : RunLe (dtMarkAll b n ds st) (dtMarkAll b m ds st) := by
  unfold dtMarkAll; (try dsimp only); rmono
macro_rules | `(tactic| rmono_lem) => `(tactic| exact dtMarkAll_mono (by assumption) _ _)

theorem execDatatype_mono (st : State) (x : Name) (d : SDt) : RunLe (execDatatype b n st x d) (execDatatype b m st x d) := by
  unfold execDatatype; (try dsimp only); rmono
macro_rules | `(tactic| rmono_lem) => `(tactic| exact execDatatype_mono (by assumption) _ _ _)

theorem execDatatypes_mono (st : State) (x : List (Name × Nat)) (d : List SDt) : RunLe (execDatatypes b n st x d) (execDatatypes b m st x d) := by
  unfold execDatatypes; (try dsimp only); rmono
macro_rules | `(tactic| rmono_lem) => `(tactic| exact execDatatypes_mono (by assumption) _ _ _)

theorem parsePremises_mono (p : SPremises) (st : State) : RunLe (parsePremises b n p st) (parsePremises b m p st) := by
  unfold parsePremises; (try dsimp only); rmono
macro_rules | `(tactic| rmono_lem) => `(tactic| exact parsePremises_mono (by assumption) _ _)

theorem parseOpt_mono (p : Option SExp) (st : State) : RunLe (parseOpt b n p st) (parseOpt b m p st) := by
  unfold parseOpt; (try dsimp only); rmono
macro_rules | `(tactic| rmono_lem) => `(tactic| exact parseOpt_mono (by assumption) _ _)

theorem ruleProg_mono (st : State) (x : Name) (as : List Term) (r : Term) : RunLe (ruleProg b n st x as r) (ruleProg b m st x as r) := by
  unfold ruleProg; (try dsimp only); rmono
macro_rules | `(tactic| rmono_lem) => `(tactic| exact ruleProg_mono (by assumption) _ _ _ _)

omit h in
theorem mkRequires_mono {mk mk' : Kind → List Term → Out Term} (hm : MkLe mk mk') (r : Term) : ∀ l : List (Term × Term), Le (mkRequires mk l r) (mkRequires mk' l r)
  | [] => .refl _
  | _ :: l => .bind (mkRequires_mono hm r l) fun _ => hm _ _

theorem lift_requires_mono (env : Env) (l : List (Term × Term)) (r : Term) :
    RunLe (Run.lift (mkRequires (mkExpr env (ops env n) n) l r)) (Run.lift (mkRequires (mkExpr env (ops env m) m) l r)) :=
  .lift (mkRequires_mono (mkExpr_mono (ops_mono _ h) n m h) _ _)
macro_rules | `(tactic| rmono_lem) => `(tactic| exact lift_requires_mono (by assumption) _ _ _)

theorem execDeclareRule_mono (st : State) (r : SRule) : RunLe (execDeclareRule b n st r) (execDeclareRule b m st r) := by
  unfold execDeclareRule; (try dsimp only); rmono
macro_rules | `(tactic| rmono_lem) => `(tactic| exact execDeclareRule_mono (by assumption) _ _)

theorem collectPremises_mono (st : State) (c : Term) (ps : List Term) : RunLe (collectPremises b n st c ps) (collectPremises b m st c ps) := by
  unfold collectPremises; (try dsimp only); rmono
macro_rules | `(tactic| rmono_lem) => `(tactic| exact collectPremises_mono (by assumption) _ _ _)

theorem premInput_mono (st : State) (c : Option Term) (ps : List Term) : RunLe (premInput b n st c ps) (premInput b m st c ps) := by
  unfold premInput; (try dsimp only); rmono
macro_rules | `(tactic| rmono_lem) => `(tactic| exact premInput_mono (by assumption) _ _ _)

theorem ruleInputs_mono (st : State) (c : Option Term) (a e : Bool) (p : Option Term) (ps as : List Term) (pop : Bool) : RunLe (ruleInputs b n st c a e p ps as pop) (ruleInputs b m st c a e p ps as pop) := by
  unfold ruleInputs; (try dsimp only); rmono
macro_rules | `(tactic| rmono_lem) => `(tactic| exact ruleInputs_mono (by assumption) _ _ _ _ _ _ _ _)

theorem lift_program_mono (env : Env) (l : List Term) : RunLe (Run.lift (evaluateProgramApp env (ops env n) l)) (Run.lift (evaluateProgramApp env (ops env m) l)) := by
  refine .lift (.bind (.refl _) fun r => ?_)
  cases r with
  | none => exact .refl _
  | some q => exact (ops_mono env h).evaluate _ _
macro_rules | `(tactic| rmono_lem) => `(tactic| exact lift_program_mono (by assumption) _ _)

theorem notifyStep_mono (st : State) (r : Term) (p : Option Term) (ps as : List Term) (pop : Bool) : RunLe (notifyStep b n st r p ps as pop) (notifyStep b m st r p ps as pop) := by
  unfold notifyStep; (try dsimp only); rmono
macro_rules | `(tactic| rmono_lem) => `(tactic| exact notifyStep_mono (by assumption) _ _ _ _ _ _)

theorem parseConc_mono (p : Option SExp) (st : State) : RunLe (parseConc b n p st) (parseConc b m p st) := by
  unfold parseConc; (try dsimp only); rmono
macro_rules | `(tactic| rmono_lem) => `(tactic| exact parseConc_mono (by assumption) _ _)

theorem execStep_mono (st : State) (s : SStep) : RunLe (execStep b n st s) (execStep b m st s) := by
  unfold execStep; (try dsimp only); rmono
macro_rules | `(tactic| rmono_lem) => `(tactic| exact execStep_mono (by assumption) _ _)

theorem normRef_mono (st : State) (a : Term) : RunLe (st.normRef b n a) (st.normRef b m a) := by
  unfold State.normRef; (try dsimp only); rmono
macro_rules | `(tactic| rmono_lem) => `(tactic| exact normRef_mono (by assumption) _ _)

theorem addAssumption_mono (st : State) (a : Term) : RunLe (st.addAssumption b n a) (st.addAssumption b m a) := by
  unfold State.addAssumption; (try dsimp only); rmono
macro_rules | `(tactic| rmono_lem) => `(tactic| exact addAssumption_mono (by assumption) _ _)

theorem addReferenceAssert_mono (st : State) (a : Term) : RunLe (st.addReferenceAssert b n a) (st.addReferenceAssert b m a) := by
  unfold State.addReferenceAssert; (try dsimp only); rmono
macro_rules | `(tactic| rmono_lem) => `(tactic| exact addReferenceAssert_mono (by assumption) _ _)

theorem execAssume_mono (st : State) (x : Name) (f : SExp) (p : Bool) : RunLe (execAssume b n st x f p) (execAssume b m st x f p) := by
  unfold execAssume; (try dsimp only); rmono
macro_rules | `(tactic| rmono_lem) => `(tactic| exact execAssume_mono (by assumption) _ _ _ _)

theorem defineParams_mono (l : List SParam) (st : State) : RunLe (defineParams b n l st) (defineParams b m l st) := by
  unfold defineParams; (try dsimp only); rmono
macro_rules | `(tactic| rmono_lem) => `(tactic| exact defineParams_mono (by assumption) _ _)

theorem checkTypeAttrs_mono (e : Term) : ∀ (l : List SExp) (st : State), RunLe (checkTypeAttrs b n e l st) (checkTypeAttrs b m e l st)
  | [], st => by unfold checkTypeAttrs; exact .refl _
  | a :: r, st => by
    have ih := fun st => checkTypeAttrs_mono e r st
    unfold checkTypeAttrs; (try dsimp only); rmono
    all_goals exact ih _
macro_rules | `(tactic| rmono_lem) => `(tactic| exact checkTypeAttrs_mono (by assumption) _ _ _)

theorem execDefine_mono (st : State) (x : Name) (ps : List SParam) (e : SExp) (tys : List SExp) : RunLe (execDefine b n st x ps e tys) (execDefine b m st x ps e tys) := by
  unfold execDefine; (try dsimp only); rmono
macro_rules | `(tactic| rmono_lem) => `(tactic| exact execDefine_mono (by assumption) _ _ _ _ _)

theorem typesOfVars_mono (st : State) : ∀ l : List Term, RunLe (typesOfVars b n st l) (typesOfVars b m st l)
  | [] => by unfold typesOfVars; exact .refl _
  | v :: l => by
    have ih := typesOfVars_mono st l
    unfold typesOfVars; rmono
macro_rules | `(tactic| rmono_lem) => `(tactic| exact typesOfVars_mono (by assumption) _ _)

theorem defineFunRhs_mono (st : State) (vs : List Term) (e r : Term) : RunLe (defineFunRhs b n st vs e r) (defineFunRhs b m st vs e r) := by
  unfold defineFunRhs; (try dsimp only); rmono
macro_rules | `(tactic| rmono_lem) => `(tactic| exact defineFunRhs_mono (by assumption) _ _ _ _)

theorem execDefineFun_mono (st : State) (x : Name) (ps : List SParam) (ty e : SExp) : RunLe (execDefineFun b n st x ps ty e) (execDefineFun b m st x ps ty e) := by
  unfold execDefineFun; (try dsimp only); rmono
macro_rules | `(tactic| rmono_lem) => `(tactic| exact execDefineFun_mono (by assumption) _ _ _ _ _)

theorem execDefineSort_mono (st : State) (x : Name) (ps : List Name) (ty : SExp) : RunLe (execDefineSort b n st x ps ty) (execDefineSort b m st x ps ty) := by
  unfold execDefineSort; (try dsimp only); rmono
macro_rules | `(tactic| rmono_lem) => `(tactic| exact execDefineSort_mono (by assumption) _ _ _ _)

theorem progVar_mono (st : State) (x : Name) (t : Term) : RunLe (progVar b n st x t) (progVar b m st x t) := by
  unfold progVar; (try dsimp only); rmono
macro_rules | `(tactic| rmono_lem) => `(tactic| exact progVar_mono (by assumption) _ _ _)

theorem progBody_mono (v : Term) (k : Nat) (cs : Option (List (SExp × SExp))) (st : State) : RunLe (progBody b n v k cs st) (progBody b m v k cs st) := by
  unfold progBody; (try dsimp only); rmono
macro_rules | `(tactic| rmono_lem) => `(tactic| exact progBody_mono (by assumption) _ _ _ _)

theorem execProgram_mono (st : State) (x : Name) (ps : List SParam) (as : List SExp) (r : SExp) (cs : Option (List (SExp × SExp))) : RunLe (execProgram b n st x ps as r cs) (execProgram b m st x ps as r cs) := by
  unfold execProgram; (try dsimp only); rmono
macro_rules | `(tactic| rmono_lem) => `(tactic| exact execProgram_mono (by assumption) _ _ _ _ _ _)

theorem exec_mono (st : State) (c : Cmd) : RunLe (exec b n st c) (exec b m st c) := by
  unfold exec; split <;> first | exact .refl _ | ((try dsimp only); rmono)
macro_rules | `(tactic| rmono_lem) => `(tactic| exact exec_mono (by assumption) _ _)

theorem runCmds_mono {i j : Name → Bool → Option Term → State → Run State} (hi : ∀ f r nf st, RunLe (i f r nf st) (j f r nf st)) (isRef : Bool) :
    ∀ (cs : List Cmd) (st : State), RunLe (runCmds b n i isRef cs st) (runCmds b m j isRef cs st)
  | [], st => by unfold runCmds; exact .refl _
  | c :: cs, st => by
    have ih := runCmds_mono hi isRef cs
    unfold runCmds
    refine .ite ?_ (.refl _)
    split
    · exact .refl _
    · exact .ite (.refl _) (.bind (hi _ _ _ _) ih)
    · exact .ite (.refl _) (.bind (parseOpt_mono h _ _) fun p => .bind (hi _ _ _ _) ih)
    · exact .bind (exec_mono h _ _) ih

theorem includeFile_mono (fs : Name → Option (List Cmd)) : ∀ (d e : Nat), d ≤ e → ∀ (f : Name) (r : Bool) (nf : Option Term) (st : State),
    RunLe (includeFile b n fs d f r nf st) (includeFile b m fs e f r nf st)
  | 0, _, _, _, _, _, _ => .fuel _
  | d+1, 0, hd, _, _, _, _ => absurd hd (by omega)
  | d+1, e+1, hd, f, r, nf, st => by
    unfold includeFile
    split
    · exact .refl _
    · exact .ite (.refl _) (.bind (runCmds_mono h (includeFile_mono fs d e (by omega)) _ _ _) fun _ => .refl _)

theorem includeAll_mono (fs : Name → Option (List Cmd)) {d e : Nat} (hd : d ≤ e) : ∀ (l : List (Name × Bool)) (st : State),
    RunLe (includeAll b n fs d l st) (includeAll b m fs e l st)
  | [], st => .refl _
  | (f, r) :: l, st => by
    unfold includeAll
    exact .bind (includeFile_mono h fs d e hd _ _ _ _) (includeAll_mono fs hd l)

theorem main_mono (fs : Name → Option (List Cmd)) {d e : Nat} (hd : d ≤ e) (l : List (Name × Bool)) (i : Input) (st : State) :
    RunLe (main b n fs d l i st) (main b m fs e l i st) := by
  unfold main runInput
  refine .bind (includeAll_mono h fs hd l st) fun st => .map ?_
  cases i with
  | file f => exact includeFile_mono h fs d e hd _ _ _ _
  | stdin cs => exact runCmds_mono h (includeFile_mono h fs d e hd) _ _ _

end
end Ethos.Props
