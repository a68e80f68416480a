import Verif.Spec.Syntax
/-
The grammar of commands: how they are written as sequences of tokens, independently of how they are read.  `lax` says that the
inputs are included that the code accepts although they are no commands.
-/
namespace Ethos.Spec
open Ethos

/-- a sequence of things -/
inductive Many {σ : Type} (W : σ → List Tk → Prop) : List σ → List Tk → Prop
  | nil : Many W [] []
  | cons (s w ss ws) : W s w → Many W ss ws → Many W (s :: ss) (w ++ ws)

/-- something in parentheses -/
inductive Parens {σ : Type} (W : σ → List Tk → Prop) : σ → List Tk → Prop
  | mk (s u u' w) : W s w → Parens W s ((.LPAREN, u) :: w ++ [(.RPAREN, u')])

/-- one thing after the other -/
inductive Both {σ τ : Type} (W : σ → List Tk → Prop) (W' : τ → List Tk → Prop) : σ × τ → List Tk → Prop
  | mk (s w t w') : W s w → W' t w' → Both W W' (s, t) (w ++ w')

/-- a keyword -/
def key (k : String) : Tk := (.KEYWORD, bytes k)

/-- a part that may be missing, after a keyword -/
inductive Section {σ : Type} (k : String) (W : σ → List Tk → Prop) (dflt : σ) : σ → List Tk → Prop
  | absent : Section k W dflt dflt []
  | present (s w) : W s w → Section k W dflt s (key k :: w)

/-- a part that may be missing -/
inductive Maybe {σ : Type} (W : σ → List Tk → Prop) : Option σ → List Tk → Prop
  | absent : Maybe W none []
  | present (s w) : W s w → Maybe W (some s) w

/-- the name of a symbol -/
inductive NameW (G : TokSem) : Name → List Tk → Prop
  | mk (tk x) : G.name tk x → NameW G x [tk]

/-- a number without leading zeroes, less than 2^32.  The code also takes larger ones, for 2^32 - 1, and negative ones, modulo 2^32. -/
inductive Num (lax : Bool) : Nat → List Tk → Prop
  | mk (ds) : Digits ds → (ds.head? = some 48 → ds = [48]) → numVal 10 ds < 2 ^ 32 → Num lax (numVal 10 ds) [(.INTEGER_LITERAL, ds)]
  | large (ds) : lax = true → Digits ds → ds.head? ≠ some 48 → 2 ^ 32 ≤ numVal 10 ds → Num lax (2 ^ 32 - 1) [(.INTEGER_LITERAL, ds)]
  | minus (ds) : lax = true → Digits ds → numVal 10 ds < 2 ^ 32 → Num lax ((2 ^ 32 - numVal 10 ds) % 2 ^ 32) [(.INTEGER_LITERAL, 45 :: ds)]
  | minusLarge (ds) : lax = true → Digits ds → 2 ^ 32 ≤ numVal 10 ds → Num lax (2 ^ 32 - 1) [(.INTEGER_LITERAL, 45 :: ds)]

/-- a string literal used as text: the only escape sequence is the doubled quotation mark -/
inductive Text : List Nat → List Tk → Prop
  | mk (x) : (∀ c ∈ x, c ≤ 127) → Text x [(.STRING_LITERAL, 34 :: doubled x ++ [34])]

/-- exchange left and right parentheses -/
def flipParen (tk : Tk) : Tk := if tk.1 = .LPAREN then (.RPAREN, tk.2) else if tk.1 = .RPAREN then (.LPAREN, tk.2) else tk

/-- a value that is skipped.  The code also skips what begins with a right parenthesis, up to the left one that balances it. -/
inductive Value (lax : Bool) : List Tk → Prop
  | mk (w) : Sexp w → Value lax w
  | flipped (w) : lax = true → Sexp (w.map flipParen) → Value lax w

/-- the literal kinds -/
def litKinds : List (String × Kind) :=
  [("<boolean>", .BOOLEAN), ("<numeral>", .NUMERAL), ("<decimal>", .DECIMAL), ("<rational>", .RATIONAL), ("<hexadecimal>", .HEXADECIMAL),
   ("<binary>", .BINARY), ("<string>", .STRING)]

inductive LitKind (G : TokSem) : Kind → List Tk → Prop
  | mk (tk x k) : (x, k) ∈ litKinds → G.name tk (bytes x) → LitKind G k [tk]

/-! ## Attributes -/

/-- the attributes with their names -/
def attrKeys : List (String × Attr) :=
  [(":list", .LIST), (":implicit", .IMPLICIT), (":opaque", .OPAQUE), (":syntax", .SYNTAX), (":restrict", .RESTRICT), (":type", .TYPE),
   (":sorry", .SORRY), (":left-assoc", .LEFT_ASSOC), (":right-assoc", .RIGHT_ASSOC), (":left-assoc-nil", .LEFT_ASSOC_NIL),
   (":right-assoc-nil", .RIGHT_ASSOC_NIL), (":left-assoc-non-singleton-nil", .LEFT_ASSOC_NS_NIL),
   (":right-assoc-non-singleton-nil", .RIGHT_ASSOC_NS_NIL), (":chainable", .CHAINABLE), (":pairwise", .PAIRWISE), (":binder", .BINDER),
   (":let-binder", .LET_BINDER), (":arg-list", .ARG_LIST)]

/-- attributes, with values as `W` says; those with other names are ignored -/
inductive Attrs (G : TokSem) {σ : Type} (W : Attr → σ → List Tk → Prop) : List σ → List Tk → Prop
  | nil : Attrs G W [] []
  | bare (k ss ws) : ¬ G.known (.KEYWORD, k) → Attrs G W ss ws → Attrs G W ss ((.KEYWORD, k) :: ws)
  | valued (k v ss ws) : ¬ G.known (.KEYWORD, k) → Sexp v → (∀ s, v.head? ≠ some (.KEYWORD, s)) → Attrs G W ss ws →
      Attrs G W ss ((.KEYWORD, k) :: v ++ ws)
  | known (k a s w ss ws) : (k, a) ∈ attrKeys → W a s w → Attrs G W ss ws → Attrs G W (s :: ss) (key k :: w ++ ws)

section
variable (G : TokSem)

/-- the attributes of parameters; in rules and programs only `:list` -/
inductive ParamAttr (rich : Bool) : Attr → PAttr → List Tk → Prop
  | list : ParamAttr rich .LIST .list []
  | implicit : rich = true → ParamAttr rich .IMPLICIT .implicit []
  | opq : rich = true → ParamAttr rich .OPAQUE .opq []
  | synt (k w) : rich = true → LitKind G k w → ParamAttr rich .SYNTAX .synt w
  | restrict (e w) : rich = true → Written G e w → ParamAttr rich .RESTRICT (.restrict e) w

/-- the attributes of constants -/
inductive ConstAttr : Attr → SAttr → List Tk → Prop
  | bare (a) : a ∈ [Attr.RIGHT_ASSOC, .LEFT_ASSOC] → ConstAttr a ⟨a, none, none⟩ []
  | expr (a e w) : a ∈ [Attr.RIGHT_ASSOC_NIL, .LEFT_ASSOC_NIL, .RIGHT_ASSOC_NS_NIL, .LEFT_ASSOC_NS_NIL, .CHAINABLE, .PAIRWISE, .BINDER, .ARG_LIST] →
      Written G e w → ConstAttr a ⟨a, some e, none⟩ w
  | pair (e e' w) : Parens (Both (Written G) (Written G)) (e, e') w → ConstAttr .LET_BINDER ⟨.LET_BINDER, some e, some e'⟩ w

/-- `:type` with a type -/
inductive TypeAttr : Attr → SExp → List Tk → Prop
  | mk (e w) : Written G e w → TypeAttr .TYPE e w

/-- `:sorry` -/
inductive SorryAttr : Attr → Unit → List Tk → Prop
  | mk : SorryAttr .SORRY () []

/-! ## Parts of commands -/

/-- the type of an argument of a program: `(eo::quote x)` or another expression.  (That it is not quoted is recorded by `annot`.) -/
inductive ArgType : SExp → List Tk → Prop
  | quote (e u u' w) : Written G e w → ArgType (.app (bytes "eo::quote") [e]) ((.LPAREN, u) :: (.SYMBOL, bytes "eo::quote") :: w ++ [(.RPAREN, u')])
  | expr (e w) : (∀ u r, w ≠ (.LPAREN, u) :: (.SYMBOL, bytes "eo::quote") :: r) → Written G e w → ArgType (.annot e) w

/-- a parameter `(x T …)` with attributes -/
inductive Param (rich : Bool) : SParam → List Tk → Prop
  | mk (x e as w w' w'' u u') : NameW G x w → Written G e w' → Attrs G (ParamAttr G rich) as w'' →
      Param rich ⟨x, e, as⟩ ((.LPAREN, u) :: w ++ w' ++ w'' ++ [(.RPAREN, u')])

/-- a list of parameters -/
def ParamList (rich : Bool) : List SParam → List Tk → Prop := Parens (Many (Param G rich))

/-- a list of expressions -/
def ExprList : List SExp → List Tk → Prop := Parens (Many (Written G))

/-- a list of pairs -/
def PairList : List (SExp × SExp) → List Tk → Prop := Parens (Many (Parens (Both (Written G) (Written G))))

/-- a constructor of a datatype `(c (s1 T1) … (sn Tn))` -/
inductive ConsDecl : SCons → List Tk → Prop
  | mk (x sels w w' u u') : NameW G x w → Many (Parens (Both (NameW G) (Written G))) sels w' →
      ConsDecl ⟨x, sels⟩ ((.LPAREN, u) :: w ++ w' ++ [(.RPAREN, u')])

/-- the definition of a datatype -/
inductive DtDef : SDt → List Tk → Prop
  | plain (cs w) : Parens (Many (ConsDecl G)) cs w → DtDef ⟨[], cs⟩ w
  | par (xs cs w w' u u' p) : xs ≠ [] → Parens (Many (NameW G)) xs w → Parens (Many (ConsDecl G)) cs w' →
      DtDef ⟨xs, cs⟩ ((.LPAREN, u) :: (.PAR, p) :: w ++ w' ++ [(.RPAREN, u')])

/-- the premises of a rule -/
inductive RulePremises : SPremises → List Tk → Prop
  | absent : RulePremises (.each []) []
  | each (es w) : ExprList G es w → RulePremises (.each es) (key ":premises" :: w)
  | plist (e c w w') : Written G e w → Written G c w' → RulePremises (.plist e c) (key ":premise-list" :: w ++ w')

/-- the conclusion of a rule -/
inductive RuleConclusion : Bool × SExp → List Tk → Prop
  | plain (e w) : Written G e w → RuleConclusion (false, e) (key ":conclusion" :: w)
  | explicit (e w) : Written G e w → RuleConclusion (true, e) (key ":conclusion-explicit" :: w)

/-- What follows the rule in a step.  The code also accepts another keyword instead of the arguments. -/
inductive StepArgs (lax : Bool) : List SExp × List SExp → List Tk → Prop
  | mk (ps as w w') : Section ":premises" (ExprList G) [] ps w → Section ":args" (ExprList G) [] as w' → StepArgs lax (ps, as) (w ++ w')
  | other (ps w k) : lax = true → Section ":premises" (ExprList G) [] ps w → bytes ":args" ≠ k → (w = [] → bytes ":premises" ≠ k) →
      StepArgs lax (ps, []) (w ++ [(.KEYWORD, k)])

end

/-! ## Commands -/

/-- `(set-option k v)` sets an option if `v` is `true` or `false` -/
inductive OptionEffect : List Nat → List Tk → Option (Name × Bool) → Prop
  | yes (k) : OptionEffect (58 :: k) [(.SYMBOL, bytes "true")] (some (k, true))
  | no (k) : OptionEffect (58 :: k) [(.SYMBOL, bytes "false")] (some (k, false))
  | none (k v) : v ≠ [(.SYMBOL, bytes "true")] → v ≠ [(.SYMBOL, bytes "false")] → OptionEffect k v none

section
variable (G : TokSem) (lax isRef : Bool)

/-- What follows the name of a command, and the option that the command sets.  `isRef`: in a reference file.  Files are named as written. -/
inductive Body : String → Cmd → Option (Name × Bool) → List Tk → Prop
  | assume (x f w w') : NameW G x w → Written G f w' → Body "assume" (.assume x f) none (w ++ w')
  | assumePush (x f w w') : NameW G x w → Written G f w' → Body "assume-push" (.assumePush x f) none (w ++ w')
  | declareConst (x ty as w w' w'') : NameW G x w → Written G ty w' → Attrs G (ConstAttr G) as w'' →
      Body "declare-const" (.declareConst x ty as) none (w ++ w' ++ w'')
  | declareFun (x ts ty w w' w'') : NameW G x w → ExprList G ts w' → Written G ty w'' →
      Body "declare-fun" (.declareFun x ts ty) none (w ++ w' ++ w'')
  | declareParam (x ps ty as w w' w'' w''') : NameW G x w → ParamList G true ps w' → Written G ty w'' → Attrs G (ConstAttr G) as w''' →
      Body "declare-parameterized-const" (.declareParam x ps ty as) none (w ++ w' ++ w'' ++ w''')
  | declareDatatype (x d w w') : NameW G x w → DtDef G d w' → Body "declare-datatype" (.declareDatatype x d) none (w ++ w')
  | declareDatatypes (xs ds w w') : Parens (Many (Parens (Both (NameW G) (Num lax)))) xs w → Parens (Many (DtDef G)) ds w' →
      Body "declare-datatypes" (.declareDatatypes xs ds) none (w ++ w')
  | declareConsts (k ty w w') : LitKind G k w → Written G ty w' → Body "declare-consts" (.declareConsts k ty) none (w ++ w')
  | declareRule (x ps asm prems args reqs conc ex sry w1 w2 w3 w4 w5 w6 w7 w8) : NameW G x w1 → ParamList G false ps w2 →
      Section ":assumption" (fun a w => ∃ e, a = some e ∧ Written G e w) none asm w3 → RulePremises G prems w4 →
      Section ":args" (ExprList G) [] args w5 → Section ":requires" (PairList G) [] reqs w6 → RuleConclusion G (ex, conc) w7 →
      Attrs G SorryAttr sry w8 →
      Body "declare-rule" (.declareRule ⟨x, ps, asm, prems, args, reqs, conc, ex, !sry.isEmpty⟩) none
        (w1 ++ w2 ++ w3 ++ w4 ++ w5 ++ w6 ++ w7 ++ w8)
  | declareSort (x k w w') : NameW G x w → Num lax k w' → Body "declare-sort" (.declareSort x k) none (w ++ w')
  | defineConst (x ty e w w' w'') : NameW G x w → Written G ty w' → Written G e w'' →
      Body "define-const" (.defineConst x ty e) none (w ++ w' ++ w'')
  | define (x ps e tys w w' w'' w''') : NameW G x w → ParamList G true ps w' → Written G e w'' → Attrs G (TypeAttr G) tys w''' →
      Body "define" (.define x ps e tys) none (w ++ w' ++ w'' ++ w''')
  | defineFun (x ps ty e w w' w'' w''') : NameW G x w → ParamList G true ps w' → Written G ty w'' → Written G e w''' →
      Body "define-fun" (.defineFun x ps ty e) none (w ++ w' ++ w'' ++ w''')
  | defineSort (x ps ty w w' w'') : NameW G x w → Parens (Many (NameW G)) ps w' → Written G ty w'' →
      Body "define-sort" (.defineSort x ps ty) none (w ++ w' ++ w'')
  | program (x ps args ret cases w w' w'' w''' v) : NameW G x w → ParamList G false ps w' → Parens (Many (ArgType G)) args w'' →
      Written G ret w''' → Maybe (PairList G) cases v →
      Body "program" (.program x ps args ret cases) none (w ++ w' ++ key ":signature" :: w'' ++ w''' ++ v)
  | reset : Body "reset" .reset none []
  | step (x f r ps as w w' w'' v) : NameW G x w → Maybe (Written G) f w' → NameW G r w'' → StepArgs G lax (ps, as) v →
      Body "step" (.step ⟨x, f, r, ps, as, false⟩) none (w ++ w' ++ key ":rule" :: w'' ++ v)
  | stepPop (x f r ps as w w' w'' v) : NameW G x w → Maybe (Written G) f w' → NameW G r w'' → StepArgs G lax (ps, as) v →
      Body "step-pop" (.step ⟨x, f, r, ps, as, true⟩) none (w ++ w' ++ key ":rule" :: w'' ++ v)
  | assert (f w) : Written G f w → Body "assert" (.assert f) none w
  | checkSat : isRef = true → Body "check-sat" .nop none []
  | checkSatAssuming (fs w) : ExprList G fs w → Body "check-sat-assuming" (.checkSatAssuming fs) none w
  | push (k w) : Maybe (Num lax) k w → Body "push" (.push (k.getD 1)) none w
  | pop (k w) : Maybe (Num lax) k w → Body "pop" (.pop (k.getD 1)) none w
  | echo (s w) : Maybe Text s w → Body "echo" .nop none w
  | setLogic (x w) : isRef = true → NameW G x w → Body "set-logic" .nop none w
  | setInfo (k w) : isRef = true → Value lax w → Body "set-info" .nop none ((.KEYWORD, k) :: w)
  | setOption (k v eff) : Value lax v → (if isRef then eff = none else OptionEffect k v eff) → Body "set-option" .nop eff ((.KEYWORD, k) :: v)
  | exit : Body "exit" .exit none []
  | incl (f w) : Text f w → Body "include" (.incl f) none w
  | reference (f e w w') : Text f w → Maybe (Written G) e w' → Body "reference" (.reference f e) none (w ++ w')

end
end Ethos.Spec
