import Verif.Lemmas.Reader
import Verif.Lemmas.LitRead
import Verif.Props.Elab
/-
C65: expressions are read by the grammar.  C66: literals denote their values.
-/
namespace Ethos.Props
open Ethos Kind Ethos.Spec

/-! ### Meanings of tokens -/

/-- two meanings of tokens agree on some tokens -/
def AgreeOn (G G' : TokSem) (ws : List Tk) : Prop :=
  ∀ tk ∈ ws, (∀ x, G.name tk x ↔ G'.name tk x) ∧ (∀ l, G.lit tk l ↔ G'.lit tk l) ∧ (G.known tk ↔ G'.known tk)

theorem AgreeOn.sub {G G' : TokSem} {ws v : List Tk} (h : AgreeOn G G' ws) (hv : ∀ tk ∈ v, tk ∈ ws) : AgreeOn G G' v := fun tk htk => h tk (hv tk htk)

theorem ignored_congr {G G' : TokSem} {ws : List Tk} (h : Ignored G ws) : AgreeOn G G' ws → Ignored G' ws := by
  induction h with
  | nil => intro _; exact .nil
  | bare k ws hk _ ih =>
    intro ha
    exact .bare k ws (fun h => hk ((ha _ (by simp)).2.2.2 h)) (ih (ha.sub fun tk h => by simp [h]))
  | valued k v ws hk hv h1 _ ih =>
    intro ha
    exact .valued k v ws (fun h => hk ((ha _ (by simp)).2.2.2 h)) hv h1 (ih (ha.sub fun tk h => by simp [h]))

mutual
theorem written_congr {G G' : TokSem} : ∀ {e : SExp} {ws : List Tk}, Written G e ws → AgreeOn G G' ws → Written G' e ws
  | _, _, .sym tk x h, ha => .sym tk x (((ha tk (by simp)).1 x).1 h)
  | _, _, .lit tk l h, ha => .lit tk l (((ha tk (by simp)).2.1 l).1 h)
  | _, _, .type s, _ => .type s
  | _, _, .bool s, _ => .bool s
  | _, _, .app s s' tk x es ws hn h, ha =>
    .app s s' tk x es ws (((ha tk (by simp)).1 x).1 hn) (writtenAll_congr h (ha.sub fun tk h => by simp [h]))
  | _, _, .appq s s' h w es ws hi hw hes, ha =>
    .appq s s' h w es ws hi (written_congr hw (ha.sub fun tk h => by simp [h])) (writtenAll_congr hes (ha.sub fun tk h => by simp [h]))
  | _, _, .binder s s' u u' tk x xs es w args ws hn hb hx h, ha =>
    .binder s s' u u' tk x xs es w args ws (((ha tk (by simp)).1 x).1 hn) (writtenBinds_congr hb (ha.sub fun tk h => by simp [h])) hx
      (writtenAll_congr h (ha.sub fun tk h => by simp [h]))
  | _, _, .letE s s' u u' tk xs es w body wb hk hb h, ha =>
    .letE s s' u u' tk xs es w body wb hk (writtenBinds_congr hb (ha.sub fun tk h => by simp [h])) (written_congr h (ha.sub fun tk h => by simp [h]))
  | _, _, .annot s s' k e w a h hi, ha =>
    .annot s s' k e w a (written_congr h (ha.sub fun tk h => by simp [h])) (ignored_congr hi (ha.sub fun tk h => by simp [h]))
theorem writtenAll_congr {G G' : TokSem} : ∀ {es : List SExp} {ws : List Tk}, WrittenAll G es ws → AgreeOn G G' ws → WrittenAll G' es ws
  | _, _, .nil, _ => .nil
  | _, _, .cons e w es ws h h', ha => .cons e w es ws (written_congr h (ha.sub fun tk h => by simp [h])) (writtenAll_congr h' (ha.sub fun tk h => by simp [h]))
theorem writtenBinds_congr {G G' : TokSem} : ∀ {xs : List Name} {es : List SExp} {ws : List Tk}, WrittenBinds G xs es ws → AgreeOn G G' ws →
    WrittenBinds G' xs es ws
  | _, _, _, .nil, _ => .nil
  | _, _, _, .cons s s' tk x e w xs es ws hn h h', ha =>
    .cons s s' tk x e w xs es ws (((ha tk (by simp)).1 x).1 hn) (written_congr h (ha.sub fun tk h => by simp [h]))
      (writtenBinds_congr h' (ha.sub fun tk h => by simp [h]))
end

theorem AgreeOn.symm {G G' : TokSem} {ws : List Tk} (h : AgreeOn G G' ws) : AgreeOn G' G ws :=
  fun tk htk => ⟨fun x => ((h tk htk).1 x).symm, fun l => ((h tk htk).2.1 l).symm, (h tk htk).2.2.symm⟩

/-- the code gives tokens their meaning -/
theorem agreeOn_good {o : ReadOpts} {fl : LexFlags} {ws : List Tk} (h : ∀ tk ∈ ws, GoodTok fl tk) : AgreeOn (codeSem o) (tokSem o) ws := by
  intro tk htk
  refine ⟨fun x => tokenStrToSymbol_iff (h tk htk), fun l => litOfToken_iff (h tk htk), ?_⟩
  simp only [codeSem, tokSem]
  rw [tokenStr_eq (h tk htk).null, findAttr_iff]

/-! ### C66 -/

/-- **C66**.  The literal of a token is the one that is written: numerals in decimal notation with an optional sign, decimals and
fractions as exact rationals, hexadecimal and binary constants with their width, and strings with the code points of their escape
sequences; which kind of literal it is depends on the options and on whether the file is a signature. -/
theorem C66_literal_partial {o : ReadOpts} {fl : LexFlags} {tk : Tk} (h : GoodTok fl tk) (l : Lit) : litOfToken o tk = .ok l ↔ LitTok o tk l :=
  litOfToken_iff h

/-- a token has at most one literal -/
theorem C66_unique {o : ReadOpts} {tk : Tk} {l l' : Lit} (hl : tk.2.length < 2 ^ 30) (hp : NoControl tk) (h : LitTok o tk l) (h' : LitTok o tk l') : l = l' := by
  have := (litOfToken_complete h hl hp).symm.trans (litOfToken_complete h' hl hp)
  cases this
  rfl

/-- control characters of a string are dropped: a string with a newline is read as the string without it -/
theorem C66_control_refuted : ∃ o : ReadOpts, ∃ tk : Tk, (∃ fl la, Lexeme fl tk.1 tk.2 la) ∧ 0 ∉ tk.2 ∧ LitTok o tk (.str [97, 10, 98]) ∧
    litOfToken o tk = .ok (.str [97, 98]) := by
  refine ⟨⟨false, false, false, false⟩, (.STRING_LITERAL, 34 :: doubled [97, 10, 98] ++ [34]), ⟨⟨true, true⟩, none, .string _ _ (by simp)⟩, by decide, ?_, by decide +kernel⟩
  refine .str _ _ (by decide) ?_
  exact .char _ _ _ (fun h => absurd h (by decide)) (.char _ _ _ (fun h => absurd h (by decide)) (.char _ _ _ (fun h => absurd h (by decide)) .nil))

/-! ### C65 -/

/-- **C65**.  Reading an expression from tokens succeeds exactly if the tokens begin with an expression, as the grammar writes it,
that can be read where it stands; the term is the one it denotes and the tokens after it remain. -/
theorem C65_expr {b : Env} {n : Nat} {o : ReadOpts} {fl : LexFlags} {toks rest : List Tk} {st st' : State} {t : Term} (h : ∀ tk ∈ toks, GoodTok fl tk) :
    readExpr b n o toks st = .ok (rest, st', t) ↔
      ∃ e ws, toks = ws ++ rest ∧ Written (tokSem o) e ws ∧ parseExpr b n e st = .ok (st', t) := by
  rw [readExpr_iff]
  constructor
  · rintro ⟨e, ws, rfl, h1, h2⟩
    exact ⟨e, ws, rfl, written_congr h1 (agreeOn_good fun tk htk => h tk (by simp [htk])), h2⟩
  · rintro ⟨e, ws, rfl, h1, h2⟩
    exact ⟨e, ws, rfl, written_congr h1 (agreeOn_good fun tk htk => h tk (by simp [htk])).symm, h2⟩

/-- In every state reached without `reset`, what is read from tokens is what the expression they begin with denotes by lexical scoping. -/
theorem C65_denotes {b : Env} {n n0 : Nat} {es : List Event} {st : State} {o : ReadOpts} {fl : LexFlags} (hr : .cmd .reset ∉ es)
    (h : replay b n es (State.init b n0) = .ok st) :
    ∃ a, Bindings b n es (State.init b n0) (builtinNames b) st a ∧ Shows st a ∧ ∀ toks, (∀ tk ∈ toks, GoodTok fl tk) → ∀ rest t,
      (∃ m st', readExpr b m o toks st = .ok (rest, st', t)) ↔ ∃ e ws, toks = ws ++ rest ∧ Written (tokSem o) e ws ∧ Means b st a e t := by
  obtain ⟨a, h1, h2, h3⟩ := C59_denotes hr h
  refine ⟨a, h1, h2, fun toks hg rest t => ⟨?_, ?_⟩⟩
  · rintro ⟨m, st', hp⟩
    obtain ⟨e, ws, h4, h5, h6⟩ := (C65_expr hg).1 hp
    exact ⟨e, ws, h4, h5, (h3 e t).1 ⟨m, st', h6⟩⟩
  · rintro ⟨e, ws, h4, h5, h6⟩
    obtain ⟨m, st', h7⟩ := (h3 e t).2 h6
    exact ⟨m, st', (C65_expr hg).2 ⟨e, ws, h4, h5, h7⟩⟩

/-- `)` where an expression is expected is no error: the code reads the last element of an empty vector (expr_parser.cpp:239) -/
theorem C65_close_refuted (b : Env) (n : Nat) (o : ReadOpts) (s : List Nat) (r : List Tk) (st : State) : readExpr b n o ((.RPAREN, s) :: r) st = .ub := by
  simp [readExpr, rloop]

/-- inside a `let` and an annotation it is an error: `(let () )`, `(let ((x )) ..)` and `(! )` are refused whatever follows -/
theorem C65_missing (b : Env) (n : Nat) (o : ReadOpts) (l : Token) (hl : l = .LET ∨ l = .EVAL_DEFINE) (x s1 s2 s3 s4 s5 s6 : List Nat) (r : List Tk) (st : State) :
    readExpr b n o ((.LPAREN, s1) :: (l, s2) :: (.LPAREN, s3) :: (.RPAREN, s4) :: (.RPAREN, s5) :: r) st = .err ∧
    readExpr b n o ((.LPAREN, s1) :: (l, s2) :: (.LPAREN, s3) :: (.LPAREN, s4) :: (.SYMBOL, x) :: (.RPAREN, s6) :: r) st = .err ∧
    readExpr b n o ((.LPAREN, s1) :: (.ATTRIBUTE, s2) :: (.RPAREN, s3) :: r) st = .err := by
  rcases hl with rfl | rfl <;>
    simp [readExpr, rloop, rlet, eat, readName, tokenStrToSymbol, Run.bind, Run.map]

/-! ### Examples -/

theorem lexes_lexeme {fl : LexFlags} {s : List Nat} {ts : List Tk} (h : Lexes fl s ts) : ∀ tk ∈ ts, ∃ la, Lexeme fl tk.1 tk.2 la := by
  induction h with
  | done => simp
  | token w t x r ts _ hx _ ih =>
    intro tk htk
    rcases List.mem_cons.1 htk with rfl | htk
    · exact ⟨_, hx⟩
    · exact ih tk htk

/-- the tokens of an input are as the theorems require -/
theorem goodTok_of {fl : LexFlags} {s : List Nat} {ts : List Tk} (hr : ∀ b ∈ s, 0 < b ∧ b < 128) (h : lexInput fl (.init true false 8 s) = .ok ts)
    (hk : ∀ p ∈ ts, ¬ ShortKeyword p ∧ ¬ Unterminated p) (hl : ∀ p ∈ ts, 0 ∉ p.2 ∧ p.2.length < 2 ^ 30 ∧ ∀ c ∈ p.2, 32 ≤ c) : ∀ tk ∈ ts, GoodTok fl tk := by
  have hx := C58_read_partial (by decide) (fun b hb => ⟨by have := hr b hb; omega, fun _ _ => by have := hr b hb; omega⟩) h hk
  intro tk htk
  obtain ⟨h1, h2, h3⟩ := hl tk htk
  exact ⟨lexes_lexeme hx tk htk, h1, h2, fun _ => h3⟩

instance (d : Nat) : Decidable (Digit d) := inferInstanceAs (Decidable (_ ∧ _))
instance (d : Nat) : Decidable (HexDigit d) := inferInstanceAs (Decidable (_ ∨ _))
instance (p : Token × List Nat) : Decidable (ShortKeyword p) := inferInstanceAs (Decidable (_ ∧ _))
instance (p : Token × List Nat) : Decidable (Unterminated p) := inferInstanceAs (Decidable (_ ∨ _))

/-- an expression with `let`, an annotation and literals, followed by other tokens -/
def readText : List Nat := bytes "(let ((x true)) (f x (! |false| :kk (a \"b\") :ll))) -12.50 )"
def readToks : List Tk :=
  [(.LPAREN, bytes "("), (.LET, bytes "let"), (.LPAREN, bytes "("), (.LPAREN, bytes "("), (.SYMBOL, bytes "x"), (.SYMBOL, bytes "true"),
   (.RPAREN, bytes ")"), (.RPAREN, bytes ")"), (.LPAREN, bytes "("), (.SYMBOL, bytes "f"), (.SYMBOL, bytes "x"), (.LPAREN, bytes "("),
   (.ATTRIBUTE, bytes "!"), (.QUOTED_SYMBOL, bytes "|false|"), (.KEYWORD, bytes ":kk"), (.LPAREN, bytes "("), (.SYMBOL, bytes "a"),
   (.STRING_LITERAL, bytes "\"b\""), (.RPAREN, bytes ")"), (.KEYWORD, bytes ":ll"), (.RPAREN, bytes ")"), (.RPAREN, bytes ")"), (.RPAREN, bytes ")"),
   (.DECIMAL_LITERAL, bytes "-12.50"), (.RPAREN, bytes ")")]
theorem readText_lexed : lexInput ⟨true, false⟩ (.init true false 8 readText) = .ok readToks := by decide +kernel
theorem readToks_good : ∀ tk ∈ readToks, GoodTok ⟨true, false⟩ tk :=
  goodTok_of (s := readText) (by decide +kernel) readText_lexed (by decide +kernel) (by decide +kernel)

/-- `(f true false)` is read from it, the last two tokens remain -/
def readOpts : ReadOpts := ⟨false, false, true, true⟩
example : ((exRun [.declareConst (nm "f") (ap "->" [.bool, .bool, .bool]) []]).bind fun st => readExpr exB 10 readOpts readToks st).map
    (fun p => (p.1.length, p.2.2)) = .ok (2, .node APPLY [.node APPLY [.sym CONST 10, tTrue], tFalse]) := by decide +kernel
/-- the expression that is written -/
example : Written (tokSem readOpts) (.letE [nm "x"] [sy "true"] (.app (nm "f") [sy "x", .annot (sy "false")])) (readToks.take 23) := by
  have hS : ∀ x : String, (tokSem readOpts).name (.SYMBOL, bytes x) (bytes x) := fun x => .plain _
  have hk : ∀ x : String, ¬ (∃ a ∈ attrNames, bytes x = bytes a) → ¬ (tokSem readOpts).known (.KEYWORD, bytes x) := fun x h => h
  refine .letE _ _ _ _ (.LET, bytes "let") _ _ [(.LPAREN, _), (.SYMBOL, bytes "x"), (.SYMBOL, bytes "true"), (.RPAREN, _)] _
    [(.LPAREN, _), (.SYMBOL, bytes "f"), (.SYMBOL, bytes "x"), (.LPAREN, _), (.ATTRIBUTE, _), (.QUOTED_SYMBOL, bytes "|false|"), (.KEYWORD, bytes ":kk"),
      (.LPAREN, _), (.SYMBOL, bytes "a"), (.STRING_LITERAL, bytes "\"b\""), (.RPAREN, _), (.KEYWORD, bytes ":ll"), (.RPAREN, _), (.RPAREN, _)] (.inl rfl)
    (.cons _ _ _ _ _ [_] _ _ [] (hS "x") (.sym _ _ (hS "true")) .nil) ?_
  refine .app _ _ _ _ _ [_, _, _, _, _, _, _, _, _, _, _] (hS "f") (.cons _ [_] _ _ (.sym _ _ (hS "x")) (.cons _ [_, _, _, _, _, _, _, _, _, _] _ [] ?_ .nil))
  refine .annot _ _ _ _ [_] [_, _, _, _, _, _] (.sym _ _ (.quoted (bytes "false"))) ?_
  refine .valued _ [_, _, _, _] _ (hk ":kk" (by decide +kernel)) (.list _ _ [_, _] (.cons [_] _ (.atom _ (by decide) (by decide)) (.cons [_] _ (.atom _ (by decide) (by decide)) .nil))) (by simp) ?_
  exact .bare _ _ (hk ":ll" (by decide +kernel)) .nil

/-- a negative decimal, a hexadecimal constant and a string with an escape sequence -/
example : LitTok readOpts (.DECIMAL_LITERAL, bytes "-12.50") (.rat (-25 / 2)) := by
  have h := LitTok.decRat (o := readOpts) [45] (-1) (bytes "12") (bytes "50") .minus (by decide) ⟨by decide, by decide⟩ (by decide)
  have e : (((-1 * numVal 10 (bytes "12" ++ bytes "50") : Int) : Rat) / ((10 ^ (bytes "50").length : Int) : Rat)) = -25 / 2 := by decide +kernel
  rw [e] at h
  exact h
example : LitTok readOpts (.HEX_LITERAL, bytes "#xfF0") (.bin ⟨12, 0xff0⟩) := LitTok.hexBin (bytes "fF0") (by decide) (by decide) (by decide)
example : LitTok readOpts (.STRING_LITERAL, bytes "\"a\\u{41}\\\"") (.str [97, 65, 92]) :=
  .str (bytes "a\\u{41}\\") [97, 65, 92] (by decide +kernel) (.char _ _ _ (fun h => absurd h (by decide)) (.escape (bytes "\\u{41}") 65 _ _
    (.braces (bytes "41") (by decide) (by decide) (by decide) (by decide)) (.char 92 [] [] (by
      rintro _ ⟨e, d, r, he, h⟩
      cases he with
      | four ds hl => have := congrArg List.length h; simp at this
      | braces ds hl => have := congrArg List.length h; simp at this) .nil)))
example : litOfToken readOpts (.STRING_LITERAL, bytes "\"a\\u{41}\\\"") = .ok (.str [97, 65, 92]) := by decide +kernel

end Ethos.Props
