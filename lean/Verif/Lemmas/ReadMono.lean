import Verif.Lemmas.RunMono
/- Larger bounds never change what a run over texts has reached. -/
namespace Ethos.Props
open Ethos Kind Spec

/-- the same for readers -/
def RdLe {α : Type} (p q : Rd α) : Prop := ∀ toks st, RunLe (p toks st) (q toks st)

namespace RdLe
variable {α β : Type}
theorem refl (p : Rd α) : RdLe p p := fun _ _ => .refl _
theorem bind {p q : Rd α} {f g : α → Rd β} (h : RdLe p q) (h' : ∀ a, RdLe (f a) (g a)) : RdLe (p >>= f) (q >>= g) :=
  fun toks st => .bind (h toks st) fun r => h' _ _ _
theorem act {f g : State → Run (State × α)} (h : ∀ st, RunLe (f st) (g st)) : RdLe (.act f) (.act g) := fun _ st => .map (h st)
theorem get {f g : State → Run α} (h : ∀ st, RunLe (f st) (g st)) : RdLe (.get f) (.get g) := act fun st => .map (h st)
theorem upd {f g : State → Run State} (h : ∀ st, RunLe (f st) (g st)) : RdLe (.upd f) (.upd g) := act fun st => .map (h st)
theorem ite {c : Prop} [Decidable c] {p q p' q' : Rd α} (h : RdLe p q) (h' : RdLe p' q') : RdLe (if c then p else p') (if c then q else q') := by
  split <;> assumption

theorem untilClose {p q : Rd α} (h : RdLe p q) : ∀ f, RdLe (untilClose p f) (untilClose q f)
  | 0 => refl _
  | f + 1 => fun toks st => by
    have ih := RdLe.untilClose h f
    unfold _root_.Ethos.untilClose
    cases toks with
    | nil => exact .refl _
    | cons tk r => exact .ite (.refl _) (.bind (h _ _) fun _ => .map (ih _ _))
theorem whileOpen {p q : Rd α} (h : RdLe p q) : ∀ f, RdLe (whileOpen p f) (whileOpen q f)
  | 0 => refl _
  | f + 1 => fun toks st => by
    have ih := RdLe.whileOpen h f
    unfold _root_.Ethos.whileOpen
    cases toks with
    | nil => exact .refl _
    | cons tk r => exact .ite (.refl _) (.ite (.bind (h _ _) fun _ => .map (ih _ _)) (.refl _))
theorem attrLoop {p q : Attr → Rd α} (h : ∀ a, RdLe (p a) (q a)) : ∀ f, RdLe (attrLoop p f) (attrLoop q f)
  | 0 => refl _
  | f + 1 => fun toks st => by
    have ih := RdLe.attrLoop h f
    unfold _root_.Ethos.attrLoop
    cases toks with
    | nil => exact .refl _
    | cons tk r =>
      refine .ite (.refl _) (.ite ?_ (.refl _))
      cases findAttr (tokenStr tk.2) with
      | none => exact .bind (.refl _) fun _ => ih _ _
      | some a => exact .bind (h _ _ _) fun _ => .map (ih _ _)
theorem rList {p q : Rd α} (h : RdLe p q) : RdLe (rList p) (rList q) := bind (refl _) fun _ => fun _ _ => untilClose h _ _ _
theorem rItems {p q : Rd α} (h : RdLe p q) : RdLe (rItems p) (rItems q) := fun _ _ => whileOpen h _ _ _
theorem rAttrs {p q : Attr → Rd α} (h : ∀ a, RdLe (p a) (q a)) : RdLe (rAttrs p) (rAttrs q) := fun _ _ => attrLoop h _ _ _
theorem rSection {p q : Rd α} (h : RdLe p q) (x : Name) (a : α) (k : Name) : RdLe (rSection x p a k) (rSection x q a k) := by
  unfold _root_.Ethos.rSection
  exact ite (bind h fun _ => refl _) (refl _)
theorem next {p q : Rd Unit} (h : RdLe p q) : RdLe p.next q.next := bind h fun _ => refl _
end RdLe

syntax "rdmono_lem" : tactic
macro_rules | `(tactic| rdmono_lem) => `(tactic| assumption)
syntax "rdmono" : tactic
macro_rules | `(tactic| rdmono) => `(tactic| repeat' (first
  | with_reducible exact RdLe.refl _
  | with_reducible rdmono_lem
  | with_reducible refine RdLe.bind ?_ fun _ => ?_
  | with_reducible refine RdLe.act fun _ => ?_
  | with_reducible refine RdLe.get fun _ => ?_
  | with_reducible refine RdLe.upd fun _ => ?_
  | with_reducible apply RdLe.ite
  | with_reducible apply RdLe.rList
  | with_reducible apply RdLe.rItems
  | with_reducible refine RdLe.rAttrs fun _ => ?_
  | with_reducible apply RdLe.rSection
  | with_reducible apply RdLe.next
  | (with_reducible show RunLe _ _; rmono; done)
  | split))

set_option linter.unusedSectionVars false
section
variable {b : Env} {n m : Nat} (h : n ≤ m) (o : ReadOpts)
include h

theorem reader_mono : ∀ f : Nat,
    (∀ S toks st, RunLe (rloop b n o f S toks st) (rloop b m o f S toks st)) ∧
    (∀ S x toks st, RunLe (rhead b n o f S x toks st) (rhead b m o f S x toks st)) ∧
    (∀ S toks st t, RunLe (rret b n o f S toks st t) (rret b m o f S toks st t)) ∧
    (∀ S bs toks st, RunLe (rlet b n o f S bs toks st) (rlet b m o f S bs toks st)) ∧
    (∀ toks st, RunLe (rvars b n o f toks st) (rvars b m o f toks st)) ∧
    (∀ toks st, RunLe (rlets b n o f toks st) (rlets b m o f toks st))
  | 0 => by
    refine ⟨?_, ?_, ?_, ?_, ?_, ?_⟩ <;> intros <;> first
      | (unfold rloop; exact .fuel _) | (unfold rhead; exact .fuel _) | (unfold rret; exact .fuel _) | (unfold rlet; exact .fuel _)
      | (unfold rvars; exact .fuel _) | (unfold rlets; exact .fuel _)
  | f + 1 => by
    obtain ⟨h1, h2, h3, h4, h5, h6⟩ := reader_mono f
    refine ⟨fun S toks st => ?_, fun S x toks st => ?_, fun S toks st t => ?_, fun S bs toks st => ?_, fun toks st => ?_, fun toks st => ?_⟩
    · cases toks with
      | nil => unfold rloop; exact .refl _
      | cons tk r =>
        unfold rloop
        rmono
        all_goals first | exact h1 _ _ _ | exact h2 _ _ _ _ | exact h3 _ _ _ _ | exact h4 _ _ _ _
    · unfold rhead
      dsimp only
      rmono
      all_goals first | exact h1 _ _ _ | exact h5 _ _ | exact h6 _ _
    · rcases S with _ | ⟨_ | _ | _ | _, S⟩ <;> unfold rret <;> rmono
      all_goals first | exact h1 _ _ _ | exact h3 _ _ _ _ | exact h4 _ _ _ _
    · cases toks with
      | nil => unfold rlet; exact .refl _
      | cons tk r =>
        unfold rlet
        rmono
        all_goals exact h1 _ _ _
    · cases toks with
      | nil => unfold rvars; exact .refl _
      | cons tk r =>
        unfold rvars
        rmono
        all_goals first | exact h1 _ _ _ | exact h5 _ _
    · cases toks with
      | nil => unfold rlets; exact .refl _
      | cons tk r =>
        unfold rlets
        rmono
        all_goals first | exact h1 _ _ _ | exact h6 _ _

theorem rExpr_mono : RdLe (rExpr b n o) (rExpr b m o) := fun _ _ => (reader_mono h o _).1 _ _ _
macro_rules | `(tactic| rdmono_lem) => `(tactic| exact rExpr_mono (by assumption) _)

theorem rType_mono (q e : Bool) : RdLe (rType b n o q e) (rType b m o q e) := fun toks st => by
  unfold rType
  refine .ite ?_ ?_
  · refine RdLe.bind (rExpr_mono h o) (fun _ => ?_) _ _; rdmono
  · refine RdLe.bind (rExpr_mono h o) (fun _ => ?_) _ _; rdmono
macro_rules | `(tactic| rdmono_lem) => `(tactic| exact rType_mono (by assumption) _ _ _)

theorem rFormula_mono  : RdLe (rFormula b n o ) (rFormula b m o ) := by
  unfold rFormula; rdmono
macro_rules | `(tactic| rdmono_lem) => `(tactic| exact rFormula_mono (by assumption) _)

theorem rExprList_mono  : RdLe (rExprList b n o ) (rExprList b m o ) := by
  unfold rExprList; rdmono
macro_rules | `(tactic| rdmono_lem) => `(tactic| exact rExprList_mono (by assumption) _)

theorem rTypeList_mono (q : Bool) : RdLe (rTypeList b n o q) (rTypeList b m o q) := by
  unfold rTypeList; rdmono
macro_rules | `(tactic| rdmono_lem) => `(tactic| exact rTypeList_mono (by assumption) _ _)

theorem rTwo_mono  : RdLe (rTwo b n o ) (rTwo b m o ) := by
  unfold rTwo; rdmono
macro_rules | `(tactic| rdmono_lem) => `(tactic| exact rTwo_mono (by assumption) _)

theorem rPairs_mono  : RdLe (rPairs b n o ) (rPairs b m o ) := by
  unfold rPairs; rdmono
macro_rules | `(tactic| rdmono_lem) => `(tactic| exact rPairs_mono (by assumption) _)

theorem rParamAttr_mono (r : Bool) (v : Term) (a : Attr) : RdLe (rParamAttr b n o r v a) (rParamAttr b m o r v a) := by
  unfold rParamAttr; rdmono
macro_rules | `(tactic| rdmono_lem) => `(tactic| exact rParamAttr_mono (by assumption) _ _ _ _)

theorem rParam_mono (r : Bool) : RdLe (rParam b n o r) (rParam b m o r) := by
  unfold rParam; rdmono
macro_rules | `(tactic| rdmono_lem) => `(tactic| exact rParam_mono (by assumption) _ _)

theorem rParams_mono (r : Bool) : RdLe (rParams b n o r) (rParams b m o r) := by
  unfold rParams; rdmono
macro_rules | `(tactic| rdmono_lem) => `(tactic| exact rParams_mono (by assumption) _ _)

theorem rConstAttr_mono (a : Attr) : RdLe (rConstAttr b n o a) (rConstAttr b m o a) := by
  unfold rConstAttr; rdmono
macro_rules | `(tactic| rdmono_lem) => `(tactic| exact rConstAttr_mono (by assumption) _ _)

theorem rTypeAttr_mono (e : Term) (a : Attr) : RdLe (rTypeAttr b n o e a) (rTypeAttr b m o e a) := by
  unfold rTypeAttr; rdmono
macro_rules | `(tactic| rdmono_lem) => `(tactic| exact rTypeAttr_mono (by assumption) _ _ _)

theorem rSel_mono (dt : Term) : RdLe (rSel b n o dt) (rSel b m o dt) := by
  unfold rSel; rdmono
macro_rules | `(tactic| rdmono_lem) => `(tactic| exact rSel_mono (by assumption) _ _)

theorem rCons_mono (dt : Term) (ps : List Term) : RdLe (rCons b n o dt ps) (rCons b m o dt ps) := by
  unfold rCons; rdmono
macro_rules | `(tactic| rdmono_lem) => `(tactic| exact rCons_mono (by assumption) _ _ _)

theorem rDt_mono (x : Name) (pre : Option (Term × Nat)) : RdLe (rDt b n o x pre) (rDt b m o x pre) := by
  unfold rDt; rdmono
macro_rules | `(tactic| rdmono_lem) => `(tactic| exact rDt_mono (by assumption) _ _ _)

theorem rDts_mono : ∀ l : List (Name × Option (Term × Nat)), RdLe (rDts b n o l) (rDts b m o l)
  | [] => by unfold rDts; exact .refl _
  | (x, pre) :: xs => by
    have ih := rDts_mono xs
    unfold rDts; rdmono
macro_rules | `(tactic| rdmono_lem) => `(tactic| exact rDts_mono (by assumption) _ _)

theorem rAssume_mono (p : Bool) : RdLe (rAssume b n o p) (rAssume b m o p) := by
  unfold rAssume; rdmono
macro_rules | `(tactic| rdmono_lem) => `(tactic| exact rAssume_mono (by assumption) _ _)

theorem rDeclareConst_mono  : RdLe (rDeclareConst b n o ) (rDeclareConst b m o ) := by
  unfold rDeclareConst; rdmono
macro_rules | `(tactic| rdmono_lem) => `(tactic| exact rDeclareConst_mono (by assumption) _)

theorem rDeclareFun_mono  : RdLe (rDeclareFun b n o ) (rDeclareFun b m o ) := by
  unfold rDeclareFun; rdmono
macro_rules | `(tactic| rdmono_lem) => `(tactic| exact rDeclareFun_mono (by assumption) _)

theorem rDeclareParam_mono  : RdLe (rDeclareParam b n o ) (rDeclareParam b m o ) := by
  unfold rDeclareParam; rdmono
macro_rules | `(tactic| rdmono_lem) => `(tactic| exact rDeclareParam_mono (by assumption) _)

theorem rDeclareDatatype_mono  : RdLe (rDeclareDatatype b n o ) (rDeclareDatatype b m o ) := by
  unfold rDeclareDatatype; rdmono
macro_rules | `(tactic| rdmono_lem) => `(tactic| exact rDeclareDatatype_mono (by assumption) _)

theorem rDeclareDatatypes_mono  : RdLe (rDeclareDatatypes b n o ) (rDeclareDatatypes b m o ) := by
  unfold rDeclareDatatypes; rdmono
macro_rules | `(tactic| rdmono_lem) => `(tactic| exact rDeclareDatatypes_mono (by assumption) _)

theorem rDeclareConsts_mono  : RdLe (rDeclareConsts b n o ) (rDeclareConsts b m o ) := by
  unfold rDeclareConsts; rdmono
macro_rules | `(tactic| rdmono_lem) => `(tactic| exact rDeclareConsts_mono (by assumption) _)

theorem rRulePremises_mono (k : Name) : RdLe (rRulePremises b n o k) (rRulePremises b m o k) := by
  unfold rRulePremises; rdmono
macro_rules | `(tactic| rdmono_lem) => `(tactic| exact rRulePremises_mono (by assumption) _ _)

theorem rDeclareRule_mono  : RdLe (rDeclareRule b n o ) (rDeclareRule b m o ) := by
  unfold rDeclareRule; rdmono
macro_rules | `(tactic| rdmono_lem) => `(tactic| exact rDeclareRule_mono (by assumption) _)

theorem rDefineConst_mono  : RdLe (rDefineConst b n o ) (rDefineConst b m o ) := by
  unfold rDefineConst; rdmono
macro_rules | `(tactic| rdmono_lem) => `(tactic| exact rDefineConst_mono (by assumption) _)

theorem rDefineParams_mono  : RdLe (rDefineParams b n o ) (rDefineParams b m o ) := by
  unfold rDefineParams; rdmono
macro_rules | `(tactic| rdmono_lem) => `(tactic| exact rDefineParams_mono (by assumption) _)

theorem rDefine_mono  : RdLe (rDefine b n o ) (rDefine b m o ) := by
  unfold rDefine; rdmono
macro_rules | `(tactic| rdmono_lem) => `(tactic| exact rDefine_mono (by assumption) _)

theorem rDefineFun_mono  : RdLe (rDefineFun b n o ) (rDefineFun b m o ) := by
  unfold rDefineFun; rdmono
macro_rules | `(tactic| rdmono_lem) => `(tactic| exact rDefineFun_mono (by assumption) _)

theorem rDefineSort_mono  : RdLe (rDefineSort b n o ) (rDefineSort b m o ) := by
  unfold rDefineSort; rdmono
macro_rules | `(tactic| rdmono_lem) => `(tactic| exact rDefineSort_mono (by assumption) _)

theorem rCases_mono (v : Term) (k : Nat) : RdLe (rCases b n o v k) (rCases b m o v k) := by
  unfold rCases; rdmono
macro_rules | `(tactic| rdmono_lem) => `(tactic| exact rCases_mono (by assumption) _ _ _)

theorem rProgram_mono  : RdLe (rProgram b n o ) (rProgram b m o ) := by
  unfold rProgram; rdmono
macro_rules | `(tactic| rdmono_lem) => `(tactic| exact rProgram_mono (by assumption) _)

theorem rOptConc_mono  : RdLe (rOptConc b n o ) (rOptConc b m o ) := by
  unfold rOptConc; rdmono
macro_rules | `(tactic| rdmono_lem) => `(tactic| exact rOptConc_mono (by assumption) _)

theorem rStepArgs_mono (k : Name) : RdLe (rStepArgs b n o k) (rStepArgs b m o k) := by
  unfold rStepArgs; rdmono
macro_rules | `(tactic| rdmono_lem) => `(tactic| exact rStepArgs_mono (by assumption) _ _)

theorem rStep_mono (p : Bool) : RdLe (rStep b n o p) (rStep b m o p) := by
  unfold rStep; rdmono
macro_rules | `(tactic| rdmono_lem) => `(tactic| exact rStep_mono (by assumption) _ _)

theorem rAssert_mono  : RdLe (rAssert b n o ) (rAssert b m o ) := by
  unfold rAssert; rdmono
macro_rules | `(tactic| rdmono_lem) => `(tactic| exact rAssert_mono (by assumption) _)

theorem rInclude_mono (r : Bool) : RdLe (rInclude b n o r) (rInclude b m o r) := by
  unfold rInclude; rdmono
macro_rules | `(tactic| rdmono_lem) => `(tactic| exact rInclude_mono (by assumption) _ _)

omit h in
/-- tables of commands with the same names and related readers -/
inductive TableLe : List (List Nat × Rd After) → List (List Nat × Rd After) → Prop where
  | nil : TableLe [] []
  | cons {x : List Nat} {p q : Rd After} {l l' : List (List Nat × Rd After)} : RdLe p q → TableLe l l' → TableLe ((x, p) :: l) ((x, q) :: l')

omit h in
theorem TableLe.append {l l' k k' : List (List Nat × Rd After)} (h : TableLe l l') (h' : TableLe k k') : TableLe (l ++ k) (l' ++ k') := by
  induction h with
  | nil => exact h'
  | cons hp _ ih => exact .cons hp ih

omit h in
theorem TableLe.find {l l' : List (List Nat × Rd After)} (h : TableLe l l') (x : List Nat) (toks : List Tk) (st : State) :
    RunLe (match l.find? fun p => decide (p.1 = x) with | some p => p.2 toks st | none => .err)
      (match l'.find? fun p => decide (p.1 = x) with | some p => p.2 toks st | none => .err) := by
  induction h with
  | nil => exact .refl _
  | @cons y p q l l' hp _ ih =>
    simp only [List.find?_cons]
    cases decide (y = x) with
    | true => exact hp _ _
    | false => exact ih

theorem commonTable_mono (r : Bool) : TableLe ((commonTable b n o).map fun p => (p.1, p.2 r)) ((commonTable b m o).map fun p => (p.1, p.2 r)) := by
  unfold commonTable
  simp only [List.map_cons, List.map_nil]
  repeat' (first | exact TableLe.nil | refine TableLe.cons ?_ ?_)
  all_goals rdmono

theorem refTable_mono : TableLe (refTable b n o) (refTable b m o) := by
  unfold refTable
  repeat' (first | exact TableLe.nil | refine TableLe.cons ?_ ?_)
  all_goals rdmono

theorem fileTable_mono : TableLe (fileTable b n o) (fileTable b m o) := by
  unfold fileTable
  repeat' (first | exact TableLe.nil | refine TableLe.cons ?_ ?_)
  all_goals rdmono

theorem readCmd_mono (r : Bool) : RdLe (readCmd b n o r) (readCmd b m o r) := fun toks st => by
  unfold readCmd
  cases toks with
  | nil => exact .refl _
  | cons tk t =>
    refine .ite ?_ (.refl _)
    refine TableLe.find ?_ _ _ _
    unfold cmdTable
    refine (commonTable_mono h o r).append ?_
    split
    · exact refTable_mono h o
    · exact fileTable_mono h o

theorem runToks_mono {i j : Name → Bool → Option Term → TextOpts → State → Run (TextOpts × State)}
    (hi : ∀ f r nf o st, RunLe (i f r nf o st) (j f r nf o st)) (isSig isRef : Bool) (eof : Run Unit) :
    ∀ (k : Nat) (toks : List Tk) (o : TextOpts) (st : State), RunLe (runToks b n i isSig isRef eof k toks o st) (runToks b m j isSig isRef eof k toks o st)
  | 0, _, _, _ => by unfold runToks; exact .refl _
  | _ + 1, [], _, _ => by unfold runToks; exact .refl _
  | k + 1, tk :: r, o, st => by
    have ih := runToks_mono hi isSig isRef eof k
    unfold runToks
    refine .ite (.refl _) (.bind (readCmd_mono h _ _ _ _) fun q => ?_)
    split
    · exact .bind (.refl _) fun _ => ih _ _ _
    · exact .refl _
    · exact .bind (.refl _) fun _ => ih _ _ _
    · exact .bind (hi _ _ _ _ _) fun _ => .bind (.refl _) fun _ => ih _ _ _

theorem includeText_mono (sg : Bool) (fs : Name → Option (List Nat)) : ∀ (d e : Nat), d ≤ e → ∀ (cur f : Name) (s r : Bool) (nf : Option Term) (o : TextOpts)
    (st : State), RunLe (includeText b n sg fs d cur f s r nf o st) (includeText b m sg fs e cur f s r nf o st)
  | 0, _, _, _, _, _, _, _, _, _ => .fuel _
  | d+1, 0, hd, _, _, _, _, _, _, _ => absurd hd (by omega)
  | d+1, e+1, hd, cur, f, s, r, nf, o, st => by
    unfold includeText
    dsimp only
    split
    · exact .refl _
    · refine .ite (.refl _) (.bind ?_ fun _ => .refl _)
      exact runToks_mono h (fun _ _ => includeText_mono sg fs d e (by omega) _ _ _ _) _ _ _ _ _ _ _

theorem includeTexts_mono (sg : Bool) (fs : Name → Option (List Nat)) {d e : Nat} (hd : d ≤ e) : ∀ (l : List (Name × Bool)) (o : TextOpts) (st : State),
    RunLe (includeTexts b n sg fs d l o st) (includeTexts b m sg fs e l o st)
  | [], _, _ => .refl _
  | (f, r) :: l, o, st => by
    unfold includeTexts
    exact .bind (includeText_mono h sg fs d e hd _ _ _ _ _ _ _) fun p => includeTexts_mono sg fs hd l _ _

theorem runTextInput_mono (sg : Bool) (fs : Name → Option (List Nat)) {d e : Nat} (hd : d ≤ e) (i : TextInput) (o : TextOpts) (st : State) :
    RunLe (runTextInput b n sg fs d i o st) (runTextInput b m sg fs e i o st) := by
  unfold runTextInput
  cases i with
  | file f => exact includeText_mono h sg fs d e hd _ _ _ _ _ _ _
  | stdin s => exact runToks_mono h (fun _ _ => includeText_mono h sg fs d e hd _ _ _ _) _ _ _ _ _ _ _

theorem mainText_mono (sg : Bool) (fs : Name → Option (List Nat)) {d e : Nat} (hd : d ≤ e) (l : List (Name × Bool)) (i : TextInput) (o : TextOpts)
    (st : State) : RunLe (mainText b n sg fs d l i o st) (mainText b m sg fs e l i o st) :=
  .bind (includeTexts_mono h sg fs hd l o st) fun _ => .map (runTextInput_mono h sg fs hd _ _ _)

theorem program_mono (tr sg tty : Bool) (fs : Name → Option (List Nat)) (stdin : List Nat) {d e : Nat} (hd : d ≤ e) (args : List Name) (st : State) :
    RunLe (program b n tr sg tty fs stdin d args st) (program b m tr sg tty fs stdin e args st) := by
  unfold program
  refine .bind (.refl _) fun q => ?_
  cases q with
  | help => exact .refl _
  | config => exact .refl _
  | run o incl file =>
    dsimp only
    refine .ite (.refl _) (.bind (includeTexts_mono h sg fs hd _ _ _) fun p => ?_)
    cases file with
    | none => exact .ite (.refl _) (.map (runTextInput_mono h sg fs hd _ _ _))
    | some f => exact .map (runTextInput_mono h sg fs hd _ _ _)

end
end Ethos.Props
