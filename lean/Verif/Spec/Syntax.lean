import Verif.Model.Reader
import Verif.Spec.Lexer
import Verif.Spec.Elab
import Verif.Spec.Literal
/-
The grammar: how literals and expressions are written as sequences of tokens, independently of how they are read.  Of the model,
only the types of tokens, literals and expressions are used.
-/
namespace Ethos.Spec
open Ethos

/-! ## Literals -/

/-- the value of a digit, also of a hexadecimal one -/
def digitNum (c : Nat) : Nat := if c ≤ 57 then c - 48 else if c ≤ 70 then c - 55 else c - 87

/-- the number written with the digits `ds` in base `b` -/
def numVal (b : Nat) (ds : List Nat) : Nat := positional b (ds.map digitNum)

/-- a nonempty sequence of decimal digits -/
def Digits (ds : List Nat) : Prop := ds ≠ [] ∧ ∀ d ∈ ds, Digit d

/-- an optional minus -/
inductive Sign : List Nat → Int → Prop
  | plus : Sign [] 1
  | minus : Sign [45] (-1)

/-- a valid escape sequence of a string and the code point it stands for: `\uhhhh`, or `\u{h…}` with one to five digits -/
inductive Escape : List Nat → Nat → Prop
  | four (ds) : ds.length = 4 → (∀ d ∈ ds, HexDigit d) → Escape (92 :: 117 :: ds) (numVal 16 ds)
  | braces (ds) : 1 ≤ ds.length → ds.length ≤ 5 → (∀ d ∈ ds, HexDigit d) → numVal 16 ds < 196608 →
      Escape (92 :: 117 :: 123 :: ds ++ [125]) (numVal 16 ds)

/-- the code points of a string written with escape sequences; `\` that begins none stands for itself -/
inductive StrVal : List Nat → List Nat → Prop
  | nil : StrVal [] []
  | escape (e c s v) : Escape e c → StrVal s v → StrVal (e ++ s) (c :: v)
  | char (c s v) : (c = 92 → ¬ ∃ e d r, Escape e d ∧ c :: s = e ++ r) → StrVal s v → StrVal (c :: s) (c :: v)

/-- `l` is the literal written as the token `tk`.  `o.isSig`: in a signature numerals, decimals and hexadecimal constants are
not normalised, elsewhere this depends on the options. -/
inductive LitTok (o : ReadOpts) : Tk → Lit → Prop
  | num (sg s ds) : Sign sg s → Digits ds → (o.isSig = true ∨ o.normNum = false) →
      LitTok o (.INTEGER_LITERAL, sg ++ ds) (.num (s * numVal 10 ds))
  | numRat (sg s ds) : Sign sg s → Digits ds → ¬ (o.isSig = true ∨ o.normNum = false) →
      LitTok o (.INTEGER_LITERAL, sg ++ ds) (.rat ((s * numVal 10 ds : Int) : Rat))
  | dec (sg s ds es) : Sign sg s → (∀ d ∈ ds, Digit d) → Digits es → (o.isSig = true ∨ o.normDec = false) →
      LitTok o (.DECIMAL_LITERAL, sg ++ ds ++ 46 :: es) (.dec (((s * numVal 10 (ds ++ es) : Int) : Rat) / ((10 ^ es.length : Int) : Rat)))
  | decRat (sg s ds es) : Sign sg s → (∀ d ∈ ds, Digit d) → Digits es → ¬ (o.isSig = true ∨ o.normDec = false) →
      LitTok o (.DECIMAL_LITERAL, sg ++ ds ++ 46 :: es) (.rat (((s * numVal 10 (ds ++ es) : Int) : Rat) / ((10 ^ es.length : Int) : Rat)))
  | rat (sg s ds es) : Sign sg s → Digits ds → Digits es → numVal 10 es ≠ 0 →
      LitTok o (.RATIONAL_LITERAL, sg ++ ds ++ 47 :: es) (.rat (((s * numVal 10 ds : Int) : Rat) / ((numVal 10 es : Int) : Rat)))
  | hex (ds) : ds ≠ [] → (∀ d ∈ ds, HexDigit d) → (o.isSig = true ∨ o.normHex = false) →
      LitTok o (.HEX_LITERAL, 35 :: 120 :: ds) (.hex ⟨4 * ds.length, numVal 16 ds⟩)
  | hexBin (ds) : ds ≠ [] → (∀ d ∈ ds, HexDigit d) → ¬ (o.isSig = true ∨ o.normHex = false) →
      LitTok o (.HEX_LITERAL, 35 :: 120 :: ds) (.bin ⟨4 * ds.length, numVal 16 ds⟩)
  | bin (ds) : ds ≠ [] → (∀ d ∈ ds, Bit d) → LitTok o (.BINARY_LITERAL, 35 :: 98 :: ds) (.bin ⟨ds.length, numVal 2 ds⟩)
  | str (s v) : (∀ c ∈ s, c ≤ 127) → StrVal s v → LitTok o (.STRING_LITERAL, 34 :: doubled s ++ [34]) (.str v)

/-- no control characters in a string -/
def NoControl (tk : Tk) : Prop := tk.1 = .STRING_LITERAL → ∀ c ∈ tk.2, 32 ≤ c

/-- the tokens the theorems speak about: lexemes without null characters, shorter than 2^30 characters, and strings without
control characters -/
structure GoodTok (fl : LexFlags) (tk : Tk) : Prop where
  lexeme : ∃ la, Lexeme fl tk.1 tk.2 la
  null : 0 ∉ tk.2
  short : tk.2.length < 2 ^ 30
  printable : NoControl tk

/-! ## Expressions -/

/-- the token is the symbol `x`, plain or quoted -/
inductive SymTok : Tk → Name → Prop
  | plain (x) : SymTok (.SYMBOL, x) x
  | quoted (x) : SymTok (.QUOTED_SYMBOL, 124 :: x ++ [124]) x

/-- What single tokens mean: the symbol, the literal, and the keywords that are attributes of the language. -/
structure TokSem where
  name : Tk → Name → Prop
  lit : Tk → Lit → Prop
  known : Tk → Prop

/-- the attributes of the language -/
def attrNames : List String :=
  [":list", ":implicit", ":opaque", ":syntax", ":restrict", ":type", ":sorry", ":left-assoc", ":right-assoc", ":left-assoc-nil",
   ":right-assoc-nil", ":left-assoc-non-singleton-nil", ":right-assoc-non-singleton-nil", ":chainable", ":pairwise", ":binder",
   ":let-binder", ":arg-list"]

/-- what the tokens mean in a file -/
def tokSem (o : ReadOpts) : TokSem := ⟨SymTok, LitTok o, fun tk => ∃ a ∈ attrNames, tk.2 = bytes a⟩

mutual
/-- one token, or a list in parentheses -/
inductive Sexp : List Tk → Prop
  | atom (tk) : tk.1 ≠ .LPAREN → tk.1 ≠ .RPAREN → Sexp [tk]
  | list (s s' ws) : Sexps ws → Sexp ((.LPAREN, s) :: ws ++ [(.RPAREN, s')])
/-- any number of them -/
inductive Sexps : List Tk → Prop
  | nil : Sexps []
  | cons (v ws) : Sexp v → Sexps ws → Sexps (v ++ ws)
end

/-- attributes that are not known, each alone or with a value -/
inductive Ignored (G : TokSem) : List Tk → Prop
  | nil : Ignored G []
  | bare (k ws) : ¬ G.known (.KEYWORD, k) → Ignored G ws → Ignored G ((.KEYWORD, k) :: ws)
  | valued (k v ws) : ¬ G.known (.KEYWORD, k) → Sexp v → (∀ s, v.head? ≠ some (.KEYWORD, s)) → Ignored G ws →
      Ignored G ((.KEYWORD, k) :: v ++ ws)

mutual
/-- `e` is written as the given tokens, if single tokens have the meanings `G` -/
inductive Written (G : TokSem) : SExp → List Tk → Prop
  | sym (tk x) : G.name tk x → Written G (.sym x) [tk]
  | lit (tk l) : G.lit tk l → Written G (.lit l) [tk]
  | type (s) : Written G .type [(.TYPE, s)]
  | bool (s) : Written G .bool [(.BOOL_TYPE, s)]
  /-- `(f t1 … tn)` -/
  | app (s s' tk x es ws) : G.name tk x → WrittenAll G es ws → Written G (.app x es) ((.LPAREN, s) :: tk :: ws ++ [(.RPAREN, s')])
  /-- `((_ f i1 … im) t1 … tn)` -/
  | appq (s s' h w es ws) : SExp.isIndexed h → Written G h w → WrittenAll G es ws →
      Written G (.appq h es) ((.LPAREN, s) :: w ++ ws ++ [(.RPAREN, s')])
  /-- `(f ((x1 e1) … (xn en)) t1 … tm)` with at least one variable -/
  | binder (s s' u u' tk x xs es w args ws) : G.name tk x → WrittenBinds G xs es w → xs ≠ [] → WrittenAll G args ws →
      Written G (.binder x xs es args) ((.LPAREN, s) :: tk :: (.LPAREN, u) :: w ++ (.RPAREN, u') :: ws ++ [(.RPAREN, s')])
  /-- `(let ((x1 e1) … (xn en)) t)`, or with `eo::define` -/
  | letE (s s' u u' tk xs es w body wb) : tk.1 = .LET ∨ tk.1 = .EVAL_DEFINE → WrittenBinds G xs es w → Written G body wb →
      Written G (.letE xs es body) ((.LPAREN, s) :: tk :: (.LPAREN, u) :: w ++ (.RPAREN, u') :: wb ++ [(.RPAREN, s')])
  /-- `(! t :k1 v1 … :kn vn)` -/
  | annot (s s' k e w a) : Written G e w → Ignored G a →
      Written G (.annot e) ((.LPAREN, s) :: (.ATTRIBUTE, k) :: w ++ a ++ [(.RPAREN, s')])
/-- `t1 … tn` -/
inductive WrittenAll (G : TokSem) : List SExp → List Tk → Prop
  | nil : WrittenAll G [] []
  | cons (e w es ws) : Written G e w → WrittenAll G es ws → WrittenAll G (e :: es) (w ++ ws)
/-- `(x1 e1) … (xn en)` -/
inductive WrittenBinds (G : TokSem) : List Name → List SExp → List Tk → Prop
  | nil : WrittenBinds G [] [] []
  | cons (s s' tk x e w xs es ws) : G.name tk x → Written G e w → WrittenBinds G xs es ws →
      WrittenBinds G (x :: xs) (e :: es) ((.LPAREN, s) :: tk :: w ++ (.RPAREN, s') :: ws)
end

end Ethos.Spec
