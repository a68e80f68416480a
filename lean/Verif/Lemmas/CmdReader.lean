import Verif.Model.CmdReader
import Verif.Spec.CmdSyntax
import Verif.Props.Reader
/-
Reading parts of commands from tokens agrees with reading them from trees.
-/
namespace Ethos.Props
open Ethos Kind Ethos.Spec

/-- the tokens are as the theorems require -/
def GoodToks (fl : LexFlags) (ws : List Tk) : Prop := ∀ tk ∈ ws, GoodTok fl tk

theorem GoodToks.left {fl : LexFlags} {v w : List Tk} (h : GoodToks fl (v ++ w)) : GoodToks fl v := fun tk ht => h tk (by simp [ht])
theorem GoodToks.right {fl : LexFlags} {v w : List Tk} (h : GoodToks fl (v ++ w)) : GoodToks fl w := fun tk ht => h tk (by simp [ht])
theorem GoodToks.tail {fl : LexFlags} {tk : Tk} {w : List Tk} (h : GoodToks fl (tk :: w)) : GoodToks fl w := fun t ht => h t (by simp [ht])
theorem GoodToks.head {fl : LexFlags} {tk : Tk} {w : List Tk} (h : GoodToks fl (tk :: w)) : GoodTok fl tk := h tk (by simp)

section
variable {α β σ τ : Type} {fl : LexFlags}

/-- what is left is a part of the tokens -/
def Shrinks (p : Rd α) : Prop := ∀ toks st rest st' a, p toks st = .ok (rest, st', a) → ∃ v, toks = v ++ rest

/-- If the remaining tokens satisfy `F`, then `p` succeeds exactly on the tokens that `W` writes, and does what `m` does. -/
structure ReadsWith (fl : LexFlags) (F : List Tk → Prop) (p : Rd α) (W : σ → List Tk → Prop) (m : σ → State → Run (State × α)) : Prop where
  shrinks : Shrinks p
  iff : ∀ {toks st rest st' a}, GoodToks fl toks → F rest →
    (p toks st = .ok (rest, st', a) ↔ ∃ s ws, toks = ws ++ rest ∧ W s ws ∧ m s st = .ok (st', a))

/-- no condition on the remaining tokens -/
def Any (_ : List Tk) : Prop := True

/-- the next token is a right parenthesis -/
def AtClose (rest : List Tk) : Prop := ∃ u r, rest = (.RPAREN, u) :: r

/-- no token -/
def NoTok (_ : Unit) (ws : List Tk) : Prop := ws = []

/-- a token before something -/
def After1 (t : Token) (W : σ → List Tk → Prop) (s : σ) (ws : List Tk) : Prop := ∃ u w, ws = (t, u) :: w ∧ W s w

theorem Rd.bind_def (p : Rd α) (f : α → Rd β) (toks : List Tk) (st : State) :
    (p >>= f) toks st = (p toks st).bind fun r => f r.2.2 r.1 r.2.1 := rfl
theorem Rd.pure_def (a : α) (toks : List Tk) (st : State) : (pure a : Rd α) toks st = .ok (toks, st, a) := rfl

theorem ReadsWith.weaken {F F' : List Tk → Prop} {p : Rd α} {W : σ → List Tk → Prop} {m} (h : ReadsWith fl F p W m) (hF : ∀ r, F' r → F r) : ReadsWith fl F' p W m :=
  ⟨h.shrinks, fun hg hr => h.iff hg (hF _ hr)⟩

/-- another grammar for the same -/
theorem ReadsWith.to {F : List Tk → Prop} {p : Rd α} {W : σ → List Tk → Prop} {m} {W' : τ → List Tk → Prop} {m'} (h : ReadsWith fl F p W m)
    (h1 : ∀ s ws, GoodToks fl ws → W s ws → ∃ s', W' s' ws ∧ ∀ st, m' s' st = m s st)
    (h2 : ∀ s' ws, GoodToks fl ws → W' s' ws → ∃ s, W s ws ∧ ∀ st, m' s' st = m s st) : ReadsWith fl F p W' m' := by
  refine ⟨h.shrinks, fun hg hr => ?_⟩
  rw [h.iff hg hr]
  constructor
  · rintro ⟨s, ws, rfl, hw, hm⟩
    obtain ⟨s', hw', he⟩ := h1 s ws hg.left hw
    exact ⟨s', ws, rfl, hw', by rw [he, hm]⟩
  · rintro ⟨s', ws, rfl, hw, hm⟩
    obtain ⟨s, hw', he⟩ := h2 s' ws hg.left hw
    exact ⟨s, ws, rfl, hw', by rw [← he, hm]⟩

theorem Shrinks.bind {p : Rd α} {f : α → Rd β} (h1 : Shrinks p) (h2 : ∀ a, Shrinks (f a)) : Shrinks (p >>= f) := by
  intro toks st rest st' a h
  simp only [Rd.bind_def, Run.bind_ok] at h
  obtain ⟨⟨r1, st1, a1⟩, hp, hf⟩ := h
  obtain ⟨v, rfl⟩ := h1 _ _ _ _ _ hp
  obtain ⟨v', rfl⟩ := h2 _ _ _ _ _ _ hf
  exact ⟨v ++ v', by simp⟩

/-- one reading after the other; the second one leaves tokens that allow for the first one -/
theorem ReadsWith.bind {F1 F2 : List Tk → Prop} {p : Rd α} {f : α → Rd β} {W : σ → List Tk → Prop} {W' : τ → List Tk → Prop} {m}
    {m' : α → τ → State → Run (State × β)} (h1 : ReadsWith fl F1 p W m) (h2 : ∀ a, ReadsWith fl F2 (f a) W' (m' a))
    (hF : ∀ s' w' rest, GoodToks fl w' → W' s' w' → F2 rest → F1 (w' ++ rest)) :
    ReadsWith fl F2 (p >>= f) (Both W W') fun s st => (m s.1 st).bind fun q => m' q.2 s.2 q.1 := by
  refine ⟨h1.shrinks.bind fun a => (h2 a).shrinks, fun {toks st rest st' a} hg hr => ?_⟩
  simp only [Rd.bind_def, Run.bind_ok]
  constructor
  · rintro ⟨⟨r1, st1, a1⟩, hp, hf⟩
    obtain ⟨v, rfl⟩ := h1.shrinks _ _ _ _ _ hp
    obtain ⟨s', w', rfl, hw', hm'⟩ := ((h2 a1).iff hg.right hr).1 hf
    obtain ⟨s, w, he, hw, hm⟩ := (h1.iff hg (hF s' w' rest hg.right.left hw' hr)).1 hp
    exact ⟨(s, s'), w ++ w', by rw [he]; simp, .mk _ _ _ _ hw hw', (st1, a1), hm, hm'⟩
  · rintro ⟨⟨s, s'⟩, ws, rfl, hw, ⟨st1, a1⟩, hm, hm'⟩
    cases hw with
    | mk _ w _ w' hw hw' =>
      rw [List.append_assoc] at hg ⊢
      refine ⟨(w' ++ rest, st1, a1), (h1.iff hg (hF s' w' rest hg.right.left hw' hr)).2 ⟨s, w, rfl, hw, hm⟩, ?_⟩
      exact ((h2 a1).iff hg.right hr).2 ⟨s', w', rfl, hw', hm'⟩

/-- if the first reading does not depend on what follows -/
theorem ReadsWith.then {F : List Tk → Prop} {p : Rd α} {f : α → Rd β} {W : σ → List Tk → Prop} {W' : τ → List Tk → Prop} {m}
    {m' : α → τ → State → Run (State × β)} (h1 : ReadsWith fl Any p W m) (h2 : ∀ a, ReadsWith fl F (f a) W' (m' a)) :
    ReadsWith fl F (p >>= f) (Both W W') fun s st => (m s.1 st).bind fun q => m' q.2 s.2 q.1 :=
  h1.bind h2 fun _ _ _ _ _ _ => trivial

theorem ReadsWith.act' (F : List Tk → Prop) (g : State → Run (State × α)) : ReadsWith fl F (Rd.act g) NoTok fun _ => g := by
  refine ⟨?_, ?_⟩
  · intro toks st rest st' a h
    simp only [Rd.act, Run.map_ok] at h
    obtain ⟨_, _, h⟩ := h
    cases h
    exact ⟨[], rfl⟩
  · intro toks st rest st' a hg hr
    simp only [Rd.act, Run.map_ok]
    constructor
    · rintro ⟨⟨s, x⟩, h, he⟩
      cases he
      exact ⟨(), [], rfl, rfl, h⟩
    · rintro ⟨s, ws, rfl, hw, h⟩
      cases hw
      exact ⟨_, h, rfl⟩

theorem ReadsWith.pure' (F : List Tk → Prop) (a : α) : ReadsWith fl F (pure a) NoTok fun _ st => .ok (st, a) := by
  refine ⟨?_, ?_⟩
  · intro toks st rest st' a h
    cases h
    exact ⟨[], rfl⟩
  · intro toks st rest st' a hg hr
    rw [Rd.pure_def]
    constructor
    · intro h
      cases h
      exact ⟨(), [], rfl, rfl, rfl⟩
    · rintro ⟨s, ws, rfl, hw, h⟩
      cases hw
      cases h
      rfl

theorem both_noTok {W : σ → List Tk → Prop} {s ws} : Both NoTok W s ws ↔ W s.2 ws := by
  obtain ⟨u, s⟩ := s
  constructor
  · intro h
    cases h with
    | mk _ w _ w' h h' => cases h; exact h'
  · intro h
    exact .mk () [] s ws rfl h

/-- acting before reading -/
theorem ReadsWith.act {F : List Tk → Prop} {g : State → Run (State × α)} {f : α → Rd β} {W : σ → List Tk → Prop} {m' : α → σ → State → Run (State × β)}
    (h : ∀ a, ReadsWith fl F (f a) W (m' a)) : ReadsWith fl F (Rd.act g >>= f) W fun s st => (g st).bind fun q => m' q.2 s q.1 :=
  ((ReadsWith.act' Any g).then h).to (fun s _ _ h => ⟨s.2, both_noTok.1 h, fun _ => rfl⟩) (fun s _ _ h => ⟨((), s), both_noTok.2 h, fun _ => rfl⟩)

theorem ReadsWith.get {F : List Tk → Prop} {g : State → Run α} {f : α → Rd β} {W : σ → List Tk → Prop} {m' : α → σ → State → Run (State × β)}
    (h : ∀ a, ReadsWith fl F (f a) W (m' a)) : ReadsWith fl F (Rd.get g >>= f) W fun s st => (g st).bind fun a => m' a s st :=
  (ReadsWith.act h).to (fun s ws _ h => ⟨s, h, fun st => by cases hg : g st <;> simp [Run.bind, Run.map]⟩)
    (fun s ws _ h => ⟨s, h, fun st => by cases hg : g st <;> simp [Run.bind, Run.map]⟩)

theorem ReadsWith.upd {F : List Tk → Prop} {g : State → Run State} {f : Unit → Rd β} {W : σ → List Tk → Prop} {m' : σ → State → Run (State × β)}
    (h : ReadsWith fl F (f ()) W m') : ReadsWith fl F (Rd.upd g >>= f) W fun s st => (g st).bind fun s1 => m' s s1 :=
  (ReadsWith.act (m' := fun _ => m') fun _ => h).to (fun s ws _ h => ⟨s, h, fun st => by cases hg : g st <;> simp [Run.bind, Run.map]⟩)
    (fun s ws _ h => ⟨s, h, fun st => by cases hg : g st <;> simp [Run.bind, Run.map]⟩)

theorem ReadsWith.new {F : List Tk → Prop} {g : State → State × α} {f : α → Rd β} {W : σ → List Tk → Prop} {m' : α → σ → State → Run (State × β)}
    (h : ∀ a, ReadsWith fl F (f a) W (m' a)) : ReadsWith fl F (Rd.new g >>= f) W fun s st => m' (g st).2 s (g st).1 := ReadsWith.act h

theorem ReadsWith.upd' (F : List Tk → Prop) (g : State → Run State) : ReadsWith fl F (Rd.upd g) NoTok fun _ st => (g st).map fun s => (s, ()) :=
  ReadsWith.act' F _

theorem ReadsWith.get' (F : List Tk → Prop) (g : State → Run α) : ReadsWith fl F (Rd.get g) NoTok fun _ st => (g st).map fun a => (st, a) :=
  ReadsWith.act' F _

/-! ### Single tokens -/

/-- reading one token -/
theorem ReadsWith.tok1 (p : List Tk → Run (List Tk × α)) (W : α → List Tk → Prop) (hW : ∀ a ws, W a ws → ∃ tk, ws = [tk])
    (hs : ∀ toks rest a, p toks = .ok (rest, a) → ∃ tk, toks = tk :: rest)
    (h : ∀ tk rest a, GoodTok fl tk → (p (tk :: rest) = .ok (rest, a) ↔ W a [tk])) : ReadsWith fl Any (Rd.tok p) W fun a st => .ok (st, a) := by
  refine ⟨?_, ?_⟩
  · intro toks st rest st' a h
    simp only [Rd.tok, Run.map_ok] at h
    obtain ⟨⟨r, x⟩, hp, he⟩ := h
    cases he
    obtain ⟨tk, rfl⟩ := hs _ _ _ hp
    exact ⟨[tk], rfl⟩
  · intro toks st rest st' a hg _
    simp only [Rd.tok, Run.map_ok]
    constructor
    · rintro ⟨⟨r, x⟩, hp, he⟩
      cases he
      obtain ⟨tk, rfl⟩ := hs _ _ _ hp
      exact ⟨_, [tk], rfl, (h tk _ _ hg.head).1 hp, rfl⟩
    · rintro ⟨s, ws, rfl, hw, he⟩
      cases he
      obtain ⟨tk, rfl⟩ := hW _ _ hw
      exact ⟨(rest, _), (h tk rest _ hg.head).2 hw, rfl⟩

theorem reads_name (o : ReadOpts) : ReadsWith fl Any rName (NameW (tokSem o)) fun a st => .ok (st, a) := by
  refine .tok1 _ _ ?_ ?_ ?_
  · rintro a ws ⟨tk, x, _⟩
    exact ⟨tk, rfl⟩
  · intro toks rest a h
    obtain ⟨tk, h, _⟩ := (readName_ok o).1 h
    exact ⟨tk, h⟩
  · intro tk rest a hg
    rw [readName_ok o]
    constructor
    · rintro ⟨tk', h, hn⟩
      cases h
      exact .mk tk a ((tokenStrToSymbol_iff hg).1 hn)
    · rintro ⟨_, _, h⟩
      exact ⟨tk, rfl, (tokenStrToSymbol_iff hg).2 h⟩

theorem reads_eat' (t : Token) : ReadsWith fl Any (rEat t) (fun (_ : Unit) ws => ∃ u, ws = [(t, u)]) fun a st => .ok (st, a) := by
  refine .tok1 _ _ (fun a ws h => h.elim fun u h => ⟨_, h⟩) ?_ ?_
  · intro toks rest a h
    simp only [Run.map_ok] at h
    obtain ⟨r, h, he⟩ := h
    cases he
    obtain ⟨s, h⟩ := eat_ok.1 h
    exact ⟨_, h⟩
  · intro tk rest a hg
    simp only [Run.map_ok]
    constructor
    · rintro ⟨r, h, he⟩
      cases he
      obtain ⟨s, h⟩ := eat_ok.1 h
      cases h
      exact ⟨s, rfl⟩
    · rintro ⟨u, h⟩
      cases h
      exact ⟨rest, eat_ok.2 ⟨u, rfl⟩, rfl⟩

/-- a token before something -/
theorem ReadsWith.eat {F : List Tk → Prop} {t : Token} {q : Unit → Rd β} {W : σ → List Tk → Prop} {m} (h : ReadsWith fl F (q ()) W m) :
    ReadsWith fl F (rEat t >>= q) (After1 t W) m := by
  refine ((reads_eat' t).then (m' := fun _ => m) fun _ => h).to ?_ ?_
  · rintro ⟨_, s⟩ ws _ h
    cases h with
    | mk _ w _ w' h h' =>
      obtain ⟨u, rfl⟩ := h
      exact ⟨s, ⟨u, w', rfl, h'⟩, fun st => rfl⟩
  · rintro s ws _ ⟨u, w, rfl, h⟩
    exact ⟨((), s), .mk () [(t, u)] s w ⟨u, rfl⟩ h, fun st => rfl⟩

theorem reads_keyword : ReadsWith fl Any rKeyword (fun k ws => ws = [(.KEYWORD, 58 :: k)]) fun a st => .ok (st, a) := by
  refine .tok1 _ _ (fun a ws h => ⟨_, h⟩) ?_ ?_
  · intro toks rest a h
    match toks, h with
    | tk :: r, h =>
      simp only [Run.ite_err'] at h
      obtain ⟨_, h⟩ := h
      cases h
      exact ⟨tk, rfl⟩
  · rintro ⟨k, x⟩ rest a hg
    simp only [Run.ite_err', tokenStr_eq hg.null]
    obtain ⟨la, hx⟩ := hg.lexeme
    constructor
    · rintro ⟨rfl, h⟩
      cases h
      cases hx with
      | keyword c cs _ h1 h2 h3 h4 => rfl
      | symbol _ c cs _ _ _ _ hc => cases hc
    · intro h
      cases h
      exact ⟨rfl, rfl⟩

theorem reads_numeral : ReadsWith fl Any rNumeral (Num true) fun a st => .ok (st, a) := by
  refine .tok1 _ _ (fun a ws h => by cases h <;> exact ⟨_, rfl⟩) ?_ ?_
  · intro toks rest a h
    match toks, h with
    | tk :: r, h =>
      simp only [Run.ite_err] at h
      obtain ⟨_, _, h⟩ := h
      cases h
      exact ⟨tk, rfl⟩
  · rintro ⟨k, x⟩ rest a hg
    simp only [Run.ite_err, tokenStr_eq hg.null]
    obtain ⟨la, hx⟩ := hg.lexeme
    have hds : ∀ ds, (∀ d ∈ ds, Digit d) → Integer.natOfString 10 ds = numVal 10 ds := fun ds h => natOfString_eq 10 fun d hd => (h d hd).hex
    have hpos : ∀ ds, Digits ds → streamUnsigned ds = if numVal 10 ds ≥ 2 ^ 32 then 2 ^ 32 - 1 else numVal 10 ds := by
      intro ds h
      have hn : ∀ r, ds ≠ 45 :: r := by
        rintro r rfl
        have := h.2 45 (by simp)
        unfold Digit at this
        omega
      unfold streamUnsigned
      split
      · exact absurd rfl (hn _)
      · rw [hds _ h.2]
    have hneg : ∀ ds, (∀ d ∈ ds, Digit d) → streamUnsigned (45 :: ds) = if numVal 10 ds ≥ 2 ^ 32 then 2 ^ 32 - 1 else (2 ^ 32 - numVal 10 ds) % 2 ^ 32 := by
      intro ds h
      unfold streamUnsigned
      simp only [hds _ h]
    have hzero : ∀ ds : List Nat, ds ≠ [] → (¬ (ds.length > 1 ∧ ds.head? = some 48) ↔ (ds.head? = some 48 → ds = [48])) := by
      intro ds hne
      match ds, hne with
      | [d], _ => simp
      | d :: d' :: ds, _ => simp
    constructor
    · rintro ⟨hk, hz, h⟩
      have hk : k = .INTEGER_LITERAL := Decidable.of_not_not hk
      subst hk
      cases h
      cases hx with
      | integer _ _ h1 h2 h3 =>
        rw [hpos x ⟨h1, h2⟩]
        have := (hzero x h1).1 hz
        split
        · refine .large x rfl ⟨h1, h2⟩ ?_ ‹_›
          intro h48
          have h0 : numVal 10 x = 0 := by rw [this h48]; rfl
          omega
        · exact .mk x ⟨h1, h2⟩ this (by omega)
      | symbol _ c cs _ _ _ _ hc =>
        cases hc with
        | integer _ h1 h2 =>
          rw [hneg cs h2]
          split
          · exact .minusLarge cs rfl ⟨h1, h2⟩ ‹_›
          · exact .minus cs rfl ⟨h1, h2⟩ (by omega)
    · intro h
      cases h with
      | mk _ h1 h2 h3 => exact ⟨fun h => h rfl, (hzero _ h1.1).2 h2, by rw [hpos _ h1, if_neg (by omega)]⟩
      | large _ _ h1 h2 h3 => exact ⟨fun h => h rfl, fun h => h2 h.2, by rw [hpos _ h1, if_pos h3]⟩
      | minus ds _ h1 h2 => exact ⟨fun h => h rfl, by simp, by rw [hneg _ h1.2, if_neg (by omega)]⟩
      | minusLarge ds _ h1 h2 => exact ⟨fun h => h rfl, by simp, by rw [hneg _ h1.2, if_pos h2]⟩

theorem reads_str : ReadsWith fl Any rStr Text fun a st => .ok (st, a) := by
  refine .tok1 _ _ (fun a ws h => by cases h; exact ⟨_, rfl⟩) ?_ ?_
  · intro toks rest a h
    match toks, h with
    | tk :: r, h =>
      simp only [Run.ite_err', Run.map_ok] at h
      obtain ⟨_, _, _, h⟩ := h
      cases h
      exact ⟨tk, rfl⟩
  · rintro ⟨k, x⟩ rest a hg
    simp only [Run.ite_err', tokenStr_eq hg.null, Run.map_ok]
    obtain ⟨la, hx⟩ := hg.lexeme
    have key : ∀ x : List Nat, unescapeString (34 :: doubled x ++ [34]) = if ∀ c ∈ x, c ≤ 127 then .ok x else .err := by
      intro x
      unfold unescapeString
      rw [stripQuotes_eq]
      simp only [Run.bind]
      by_cases h : ∀ c ∈ x, c ≤ 127
      · rw [if_pos (List.all_eq_true.2 fun c hc => by simpa using h c (mem_doubled hc)), unescapeLoop_doubled, if_pos h]
      · rw [if_neg (fun h1 => h fun c hc => by simpa using List.all_eq_true.1 h1 c (mem_doubled' hc)), if_neg h]
    constructor
    · rintro ⟨rfl, s, h, he⟩
      cases he
      cases hx with
      | string x _ _ =>
        rw [show unescapeString (34 :: List.append (doubled x) [34]) = _ from key x, Run.ite_err'] at h
        obtain ⟨h1, h2⟩ := h
        cases h2
        exact .mk _ h1
      | symbol _ c cs _ _ _ _ hc => cases hc
    · intro h
      cases h with
      | mk h => exact ⟨rfl, a, by rw [key, if_pos h], rfl⟩

/-! ### Skipped values -/

theorem flipParen_flip (tk : Tk) : flipParen (flipParen tk) = tk := by
  obtain ⟨k, s⟩ := tk
  unfold flipParen
  by_cases h : k = .LPAREN
  · subst h; rfl
  · by_cases h' : k = .RPAREN
    · subst h'; rfl
    · simp [h, h']

theorem skipSexp_flip : ∀ (toks : List Tk) (d : Int), skipSexp (-d) (toks.map flipParen) = (skipSexp d toks).map fun r => r.map flipParen
  | [], d => rfl
  | (k, s) :: r, d => by
    have ih := skipSexp_flip r
    by_cases h : k = .LPAREN
    · subst h
      simp only [List.map_cons, flipParen, if_true, skipSexp, reduceCtorEq, if_false]
      by_cases h0 : d + 1 = 0
      · rw [if_pos h0, if_pos (by omega)]; rfl
      · rw [if_neg h0, if_neg (by omega), show -d - 1 = -(d + 1) by omega]; exact ih _
    · by_cases h' : k = .RPAREN
      · subst h'
        simp only [List.map_cons, flipParen, if_true, skipSexp, reduceCtorEq, if_false]
        by_cases h0 : d - 1 = 0
        · rw [if_pos h0, if_pos (by omega)]; rfl
        · rw [if_neg h0, if_neg (by omega), show -d + 1 = -(d - 1) by omega]; exact ih _
      · simp only [List.map_cons, flipParen, skipSexp, h, h', if_false]
        by_cases h0 : d = 0
        · rw [if_pos h0, if_pos (by omega)]; rfl
        · rw [if_neg h0, if_neg (by omega)]; exact ih _

theorem map_flip_flip (l : List Tk) : (l.map flipParen).map flipParen = l := by
  rw [List.map_map, show flipParen ∘ flipParen = id from funext flipParen_flip, List.map_id]

theorem skip_iff {toks rest : List Tk} : skipSexp 0 toks = .ok rest ↔ ∃ w, toks = w ++ rest ∧ Value true w := by
  constructor
  · intro h
    match toks, h with
    | (k, u) :: r, h =>
      by_cases hk : k = .RPAREN
      · subst hk
        have h1 := skipSexp_flip ((.RPAREN, u) :: r) 0
        rw [h, show (-0 : Int) = 0 from rfl] at h1
        simp only [List.map_cons, Run.map] at h1
        obtain ⟨v, he, hv⟩ := skipSexp_sound (by simp [flipParen]) h1
        refine ⟨v.map flipParen, ?_, .flipped _ rfl (by rwa [map_flip_flip])⟩
        have := congrArg (List.map flipParen) he
        rw [List.map_append, map_flip_flip, ← List.map_cons, map_flip_flip] at this
        exact this
      · obtain ⟨v, he, hv⟩ := skipSexp_sound hk h
        exact ⟨v, he, .mk v hv⟩
  · rintro ⟨w, rfl, h⟩
    cases h with
    | mk h => exact skipSexp_complete h rest
    | flipped _ h =>
      have h1 := skipSexp_flip (w.map flipParen ++ rest.map flipParen) 0
      rw [show (-0 : Int) = 0 from rfl, skipSexp_complete h, ← List.map_append, map_flip_flip] at h1
      simp only [Run.map, map_flip_flip] at h1
      exact h1

theorem reads_skip : ReadsWith fl Any rSkip (fun (_ : Unit) w => Value true w) fun a st => .ok (st, a) := by
  refine ⟨?_, ?_⟩
  · intro toks st rest st' a h
    simp only [rSkip, Rd.tok, Run.map_ok] at h
    obtain ⟨_, ⟨_, h, he⟩, he'⟩ := h
    cases he
    cases he'
    obtain ⟨w, h, _⟩ := skip_iff.1 h
    exact ⟨w, h⟩
  · intro toks st rest st' a hg _
    simp only [rSkip, Rd.tok, Run.map_ok]
    constructor
    · rintro ⟨_, ⟨_, h, he⟩, he'⟩
      cases he
      cases he'
      obtain ⟨w, h, hw⟩ := skip_iff.1 h
      exact ⟨(), w, h, hw, rfl⟩
    · rintro ⟨_, w, h, hw, he⟩
      cases he
      exact ⟨_, ⟨_, skip_iff.2 ⟨w, h, hw⟩, rfl⟩, rfl⟩

/-! ### Literal kinds -/

theorem litKind_find {x : List Nat} {k : Kind} :
    (litKindTable.find? fun p => decide (p.1 = x)).map (·.2) = some k ↔ ∃ s, (s, k) ∈ litKinds ∧ x = bytes s := by
  constructor
  · intro h
    simp only [Option.map_eq_some_iff] at h
    obtain ⟨⟨y, k'⟩, h, rfl⟩ := h
    have h1 := List.find?_some h
    have h2 := List.mem_of_find?_eq_some h
    simp only [decide_eq_true_eq] at h1
    subst h1
    simp only [litKindTable, List.mem_cons, Prod.mk.injEq, List.not_mem_nil, or_false] at h2
    rcases h2 with ⟨rfl, rfl⟩ | ⟨rfl, rfl⟩ | ⟨rfl, rfl⟩ | ⟨rfl, rfl⟩ | ⟨rfl, rfl⟩ | ⟨rfl, rfl⟩ | ⟨rfl, rfl⟩
    all_goals exact ⟨_, by unfold litKinds; simp, rfl⟩
  · rintro ⟨s, h, rfl⟩
    simp only [litKinds, List.mem_cons, Prod.mk.injEq, List.not_mem_nil, or_false] at h
    rcases h with ⟨rfl, rfl⟩ | ⟨rfl, rfl⟩ | ⟨rfl, rfl⟩ | ⟨rfl, rfl⟩ | ⟨rfl, rfl⟩ | ⟨rfl, rfl⟩ | ⟨rfl, rfl⟩ <;> decide

theorem reads_litKind (o : ReadOpts) : ReadsWith fl Any rLitKind (LitKind (tokSem o)) fun a st => .ok (st, a) := by
  have h := (reads_name (fl := fl) o).then (F := Any) fun x =>
    ReadsWith.get' (fl := fl) Any fun _ => Run.orErr ((litKindTable.find? fun p => decide (p.1 = x)).map (·.2))
  refine ⟨h.shrinks, fun {toks st rest st' a} hg hr => ?_⟩
  refine (h.iff hg hr).trans ?_
  constructor
  · rintro ⟨⟨x, _⟩, ws, rfl, hw, hm⟩
    cases hw with
    | mk _ w _ w' h1 h2 =>
      cases h2
      cases h1 with
      | mk tk _ h1 =>
        simp only [Run.bind, Run.map_ok, Run.orErr_ok] at hm
        obtain ⟨k, hk, he⟩ := hm
        cases he
        obtain ⟨s, h2, rfl⟩ := litKind_find.1 hk
        exact ⟨_, _, rfl, .mk tk s _ h2 h1, rfl⟩
  · rintro ⟨k, ws, rfl, hw, hm⟩
    cases hm
    cases hw with
    | mk tk s _ h2 h1 =>
      refine ⟨(bytes s, ()), _, rfl, .mk (bytes s) [tk] () [] (.mk tk _ h1) rfl, ?_⟩
      simp only [Run.bind, Run.map_ok, Run.orErr_ok]
      exact ⟨a, litKind_find.2 ⟨s, h2, rfl⟩, rfl⟩

/-! ### Sequences -/

/-- do `m` for all elements -/
def mAll (m : σ → State → Run (State × α)) : List σ → State → Run (State × List α)
  | [], st => .ok (st, [])
  | s :: ss, st => (m s st).bind fun p => (mAll m ss p.1).map fun q => (q.1, p.2 :: q.2)

/-- a sequence and a right parenthesis -/
def Closing (W : σ → List Tk → Prop) (ss : List σ) (ws : List Tk) : Prop := ∃ u w, ws = w ++ [(.RPAREN, u)] ∧ Many W ss w

theorem parens_iff {W : σ → List Tk → Prop} {ss : List σ} {ws : List Tk} : Parens (Many W) ss ws ↔ After1 .LPAREN (Closing W) ss ws := by
  constructor
  · intro h
    cases h with
    | mk u u' w h => exact ⟨u, _, rfl, u', w, rfl, h⟩
  · rintro ⟨u, _, rfl, u', w, rfl, h⟩
    exact .mk ss u u' w h

theorem untilClose_shrinks {p : Rd α} (hp : Shrinks p) : ∀ f, Shrinks (untilClose p f)
  | 0 => fun _ _ _ _ _ h => by cases h
  | f + 1 => by
    intro toks st rest st' as h
    match toks, h with
    | tk :: r, h =>
      simp only [untilClose] at h
      split at h
      · cases h; exact ⟨[tk], rfl⟩
      · simp only [Run.bind_ok, Run.map_ok] at h
        obtain ⟨⟨r1, st1, a⟩, h1, ⟨r2, st2, bs⟩, h2, he⟩ := h
        cases he
        obtain ⟨v, hv⟩ := hp _ _ _ _ _ h1
        obtain ⟨v', rfl⟩ := untilClose_shrinks hp f _ _ _ _ _ h2
        exact ⟨v ++ v', by rw [hv]; simp⟩

theorem untilClose_iff {p : Rd α} {W : σ → List Tk → Prop} {m} (h : ReadsWith fl Any p W m)
    (hW : ∀ s ws, GoodToks fl ws → W s ws → ∃ tk r, ws = tk :: r ∧ tk.1 ≠ .RPAREN) : ∀ (f : Nat) {toks st rest st' as}, GoodToks fl toks → toks.length < f →
    (untilClose p f toks st = .ok (rest, st', as) ↔ ∃ ss ws, toks = ws ++ rest ∧ Closing W ss ws ∧ mAll m ss st = .ok (st', as)) := by
  intro f
  induction f with
  | zero => intro toks st rest st' as _ hl; omega
  | succ f ih =>
    intro toks st rest st' as hg hl
    constructor
    · intro hu
      match toks, hu with
      | tk :: r, hu =>
        simp only [untilClose] at hu
        split at hu
        · rename_i hk
          cases hu
          obtain ⟨k, u⟩ := tk
          cases hk
          exact ⟨[], [(.RPAREN, u)], rfl, ⟨u, [], rfl, .nil⟩, rfl⟩
        · simp only [Run.bind_ok, Run.map_ok] at hu
          obtain ⟨⟨r1, st1, a⟩, h1, ⟨r2, st2, bs⟩, h2, he⟩ := hu
          cases he
          obtain ⟨s, w, hw, hs, hm⟩ := (h.iff hg trivial).1 h1
          obtain ⟨tk', r', hwe, _⟩ := hW s w (by rw [hw] at hg; exact hg.left) hs
          have hl1 : r1.length < f := by
            have := congrArg List.length hw
            simp only [hwe, List.length_cons, List.length_append] at this hl
            omega
          rw [hw] at hg
          obtain ⟨ss, ws, rfl, ⟨u, w', rfl, hss⟩, hms⟩ := (ih hg.right hl1).1 h2
          refine ⟨s :: ss, w ++ (w' ++ [(.RPAREN, u)]), by rw [hw]; simp, ⟨u, w ++ w', by simp, .cons _ _ _ _ hs hss⟩, ?_⟩
          simp only [mAll, Run.bind_ok, Run.map_ok]
          exact ⟨_, hm, _, hms, rfl⟩
    · rintro ⟨ss, ws, rfl, ⟨u, w, rfl, hss⟩, hms⟩
      cases hss with
      | nil =>
        cases hms
        simp [untilClose]
      | cons s w ss ws hs hss =>
        obtain ⟨tk, r, hwe, htk⟩ := hW s w hg.left.left.left hs
        simp only [mAll, Run.bind_ok, Run.map_ok] at hms
        obtain ⟨⟨st1, a⟩, hm, ⟨st2, bs⟩, hms, he⟩ := hms
        cases he
        subst hwe
        simp only [List.cons_append, untilClose, if_neg htk, Run.bind_ok, Run.map_ok]
        refine ⟨(ws ++ [(.RPAREN, u)] ++ rest, st1, a), (h.iff (by simpa using hg) trivial).2 ⟨s, tk :: r, by simp, hs, hm⟩, (rest, _, bs), ?_, rfl⟩
        refine (ih (fun t ht => hg t (by simp at ht ⊢; rcases ht with h | h | h <;> simp [h])) ?_).2 ⟨ss, _, rfl, ⟨u, ws, rfl, hss⟩, hms⟩
        simp at hl ⊢
        omega

theorem ReadsWith.list {p : Rd α} {W : σ → List Tk → Prop} {m} (h : ReadsWith fl Any p W m)
    (hW : ∀ s ws, GoodToks fl ws → W s ws → ∃ tk r, ws = tk :: r ∧ tk.1 ≠ .RPAREN) : ReadsWith fl Any (rList p) (Parens (Many W)) (mAll m) := by
  have h1 : ReadsWith fl Any (fun toks st => untilClose p (toks.length + 1) toks st) (Closing W) (mAll m) :=
    ⟨fun toks st rest st' a h2 => untilClose_shrinks h.shrinks _ _ _ _ _ _ h2, fun hg _ => untilClose_iff h hW _ hg (by omega)⟩
  exact (ReadsWith.eat (q := fun _ => fun toks st => untilClose p (toks.length + 1) toks st) h1).to
    (fun s ws _ h => ⟨s, parens_iff.2 h, fun _ => rfl⟩) (fun s ws _ h => ⟨s, parens_iff.1 h, fun _ => rfl⟩)

theorem whileOpen_shrinks {p : Rd α} (hp : Shrinks p) : ∀ f, Shrinks (whileOpen p f)
  | 0 => fun _ _ _ _ _ h => by cases h
  | f + 1 => by
    intro toks st rest st' as h
    match toks, h with
    | tk :: r, h =>
      simp only [whileOpen] at h
      split at h
      · cases h; exact ⟨[tk], rfl⟩
      · simp only [Run.ite_err', Run.bind_ok, Run.map_ok] at h
        obtain ⟨_, ⟨r1, st1, a⟩, h1, ⟨r2, st2, bs⟩, h2, he⟩ := h
        cases he
        obtain ⟨v, rfl⟩ := hp _ _ _ _ _ h1
        obtain ⟨v', rfl⟩ := whileOpen_shrinks hp f _ _ _ _ _ h2
        exact ⟨tk :: v ++ v', by simp⟩

theorem whileOpen_iff {p : Rd α} {W : σ → List Tk → Prop} {m} (h : ReadsWith fl Any p W m) : ∀ (f : Nat) {toks st rest st' as}, GoodToks fl toks → toks.length < f →
    (whileOpen p f toks st = .ok (rest, st', as) ↔ ∃ ss ws, toks = ws ++ rest ∧ Closing (After1 .LPAREN W) ss ws ∧ mAll m ss st = .ok (st', as)) := by
  intro f
  induction f with
  | zero => intro toks st rest st' as _ hl; omega
  | succ f ih =>
    intro toks st rest st' as hg hl
    constructor
    · intro hu
      match toks, hu with
      | (k, u) :: r, hu =>
        simp only [whileOpen] at hu
        split at hu
        · rename_i hk
          cases hu
          cases hk
          exact ⟨[], [(.RPAREN, u)], rfl, ⟨u, [], rfl, .nil⟩, rfl⟩
        · simp only [Run.ite_err', Run.bind_ok, Run.map_ok] at hu
          obtain ⟨rfl, ⟨r1, st1, a⟩, h1, ⟨r2, st2, bs⟩, h2, he⟩ := hu
          cases he
          obtain ⟨s, w, rfl, hs, hm⟩ := (h.iff hg.tail trivial).1 h1
          have hl1 : r1.length < f := by simp at hl; omega
          obtain ⟨ss, ws, rfl, ⟨u', w', rfl, hss⟩, hms⟩ := (ih hg.tail.right hl1).1 h2
          refine ⟨s :: ss, (.LPAREN, u) :: w ++ (w' ++ [(.RPAREN, u')]), by simp, ⟨u', _, by simp, .cons _ ((.LPAREN, u) :: w) _ w' ⟨u, w, rfl, hs⟩ hss⟩, ?_⟩
          simp only [mAll, Run.bind_ok, Run.map_ok]
          exact ⟨_, hm, _, hms, rfl⟩
    · rintro ⟨ss, ws, rfl, ⟨u, w, rfl, hss⟩, hms⟩
      cases hss with
      | nil =>
        cases hms
        simp [whileOpen]
      | cons s w ss ws hs hss =>
        obtain ⟨u', w, rfl, hs⟩ := hs
        simp only [mAll, Run.bind_ok, Run.map_ok] at hms
        obtain ⟨⟨st1, a⟩, hm, ⟨st2, bs⟩, hms, he⟩ := hms
        cases he
        simp only [List.cons_append, whileOpen, reduceCtorEq, if_false, if_true, Run.bind_ok, Run.map_ok]
        simp only [List.append_assoc, List.cons_append] at hg hl ⊢
        refine ⟨(ws ++ ([(.RPAREN, u)] ++ rest), st1, a), (h.iff hg.tail trivial).2 ⟨s, w, by simp, hs, hm⟩, (rest, _, bs), ?_, rfl⟩
        refine (ih hg.tail.right ?_).2 ⟨ss, _, by simp, ⟨u, ws, rfl, hss⟩, hms⟩
        simp at hl ⊢
        omega

theorem ReadsWith.items {p : Rd α} {W : σ → List Tk → Prop} {m} (h : ReadsWith fl Any p W m) :
    ReadsWith fl Any (rItems p) (Closing (After1 .LPAREN W)) (mAll m) :=
  ⟨fun _ _ _ _ _ h2 => whileOpen_shrinks h.shrinks _ _ _ _ _ _ h2, fun hg _ => whileOpen_iff h _ hg (by omega)⟩

/-! ### Attributes -/

theorem findAttr_key {x : List Nat} {a : Attr} : findAttr x = some a ↔ ∃ s, (s, a) ∈ attrKeys ∧ x = bytes s := by
  constructor
  · intro h
    simp only [findAttr, Option.map_eq_some_iff] at h
    obtain ⟨⟨y, k'⟩, h, rfl⟩ := h
    have h1 := List.find?_some h
    have h2 := List.mem_of_find?_eq_some h
    simp only [decide_eq_true_eq] at h1
    subst h1
    simp only [attrTable, List.mem_cons, Prod.mk.injEq, List.not_mem_nil, or_false] at h2
    rcases h2 with ⟨rfl, rfl⟩ | ⟨rfl, rfl⟩ | ⟨rfl, rfl⟩ | ⟨rfl, rfl⟩ | ⟨rfl, rfl⟩ | ⟨rfl, rfl⟩ | ⟨rfl, rfl⟩ | ⟨rfl, rfl⟩ | ⟨rfl, rfl⟩ |
      ⟨rfl, rfl⟩ | ⟨rfl, rfl⟩ | ⟨rfl, rfl⟩ | ⟨rfl, rfl⟩ | ⟨rfl, rfl⟩ | ⟨rfl, rfl⟩ | ⟨rfl, rfl⟩ | ⟨rfl, rfl⟩ | ⟨rfl, rfl⟩
    all_goals exact ⟨_, by unfold attrKeys; simp, rfl⟩
  · rintro ⟨s, h, rfl⟩
    simp only [attrKeys, List.mem_cons, Prod.mk.injEq, List.not_mem_nil, or_false] at h
    rcases h with ⟨rfl, rfl⟩ | ⟨rfl, rfl⟩ | ⟨rfl, rfl⟩ | ⟨rfl, rfl⟩ | ⟨rfl, rfl⟩ | ⟨rfl, rfl⟩ | ⟨rfl, rfl⟩ | ⟨rfl, rfl⟩ | ⟨rfl, rfl⟩ |
      ⟨rfl, rfl⟩ | ⟨rfl, rfl⟩ | ⟨rfl, rfl⟩ | ⟨rfl, rfl⟩ | ⟨rfl, rfl⟩ | ⟨rfl, rfl⟩ | ⟨rfl, rfl⟩ | ⟨rfl, rfl⟩ | ⟨rfl, rfl⟩ <;> decide

theorem attrLoop_shrinks {h : Attr → Rd α} (hp : ∀ a, Shrinks (h a)) : ∀ f, Shrinks (attrLoop h f)
  | 0 => fun _ _ _ _ _ h => by cases h
  | f + 1 => by
    intro toks st rest st' as hh
    match toks, hh with
    | tk :: r, hh =>
      simp only [attrLoop] at hh
      split at hh
      · cases hh; exact ⟨[], rfl⟩
      · simp only [Run.ite_err'] at hh
        obtain ⟨_, hh⟩ := hh
        split at hh
        · simp only [Run.bind_ok] at hh
          obtain ⟨r1, h1, h2⟩ := hh
          obtain ⟨v', hv⟩ := attrLoop_shrinks hp f _ _ _ _ _ h2
          rcases skipValue_sound h1 with ⟨h3, _⟩ | ⟨v, h3, _⟩
          · exact ⟨tk :: v', by rw [h3, hv]; rfl⟩
          · exact ⟨tk :: v ++ v', by rw [h3, hv]; simp⟩
        · simp only [Run.bind_ok, Run.map_ok] at hh
          obtain ⟨⟨r1, st1, a⟩, h1, ⟨r2, st2, bs⟩, h2, he⟩ := hh
          cases he
          obtain ⟨v, rfl⟩ := hp _ _ _ _ _ _ h1
          obtain ⟨v', rfl⟩ := attrLoop_shrinks hp f _ _ _ _ _ h2
          exact ⟨tk :: v ++ v', by simp⟩

theorem attrs_head {G : TokSem} {W : Attr → σ → List Tk → Prop} {ss : List σ} {ws : List Tk} (h : Attrs G W ss ws) {rest : List Tk} (hr : AtClose rest) :
    ∃ tk r, ws ++ rest = tk :: r ∧ (tk.1 = .KEYWORD ∨ tk.1 = .RPAREN) := by
  cases h with
  | nil => obtain ⟨u, r, rfl⟩ := hr; exact ⟨_, r, rfl, .inr rfl⟩
  | bare k _ ws _ _ => exact ⟨_, _, rfl, .inl rfl⟩
  | valued k v _ ws _ _ _ _ => exact ⟨_, _, rfl, .inl rfl⟩
  | known k a s w _ ws _ _ _ => exact ⟨_, _, rfl, .inl rfl⟩

theorem attrLoop_iff (o : ReadOpts) {h : Attr → Rd α} {W : Attr → σ → List Tk → Prop} {m} (hp : ∀ a, ReadsWith fl Any (h a) (W a) m) :
    ∀ (f : Nat) {toks st rest st' as}, GoodToks fl toks → toks.length < f → AtClose rest →
    (attrLoop h f toks st = .ok (rest, st', as) ↔ ∃ ss ws, toks = ws ++ rest ∧ Attrs (tokSem o) W ss ws ∧ mAll m ss st = .ok (st', as)) := by
  intro f
  induction f with
  | zero => intro toks st rest st' as _ hl; omega
  | succ f ih =>
    intro toks st rest st' as hg hl hr
    have hkn : ∀ k, GoodTok fl (.KEYWORD, k) → (¬ (tokSem o).known (.KEYWORD, k) ↔ findAttr k = none) := by
      intro k hk
      simp only [tokSem]
      rw [← findAttr_iff, Bool.not_eq_true, Option.isSome_eq_false_iff, Option.isNone_iff_eq_none]
    constructor
    · intro hu
      match toks, hu with
      | (k, u) :: r, hu =>
        simp only [attrLoop] at hu
        split at hu
        · cases hu
          exact ⟨[], [], rfl, .nil, rfl⟩
        · rename_i hk
          simp only [Run.ite_err'] at hu
          obtain ⟨rfl, hu⟩ := hu
          rw [tokenStr_eq hg.head.null] at hu
          split at hu
          · rename_i hf
            simp only [Run.bind_ok] at hu
            obtain ⟨r1, h1, h2⟩ := hu
            rcases skipValue_sound h1 with ⟨rfl, _⟩ | ⟨v, rfl, hv, hv'⟩
            · obtain ⟨ss, ws, rfl, hs, hm⟩ := (ih hg.tail (by simp at hl; omega) hr).1 h2
              exact ⟨ss, (.KEYWORD, u) :: ws, rfl, .bare u _ _ ((hkn u hg.head).2 hf) hs, hm⟩
            · obtain ⟨ss, ws, rfl, hs, hm⟩ := (ih hg.tail.right (by simp at hl; omega) hr).1 h2
              exact ⟨ss, (.KEYWORD, u) :: v ++ ws, by simp, .valued u v _ _ ((hkn u hg.head).2 hf) hv hv' hs, hm⟩
          · rename_i a hf
            simp only [Run.bind_ok, Run.map_ok] at hu
            obtain ⟨⟨r1, st1, x⟩, h1, ⟨r2, st2, bs⟩, h2, he⟩ := hu
            cases he
            obtain ⟨s, w, rfl, hs, hm⟩ := ((hp a).iff hg.tail trivial).1 h1
            obtain ⟨ss, ws, rfl, hss, hms⟩ := (ih hg.tail.right (by simp at hl; omega) hr).1 h2
            obtain ⟨kk, hk, rfl⟩ := findAttr_key.1 hf
            refine ⟨s :: ss, key kk :: w ++ ws, by simp [key], .known kk a s w ss ws hk hs hss, ?_⟩
            simp only [mAll, Run.bind_ok, Run.map_ok]
            exact ⟨_, hm, _, hms, rfl⟩
    · rintro ⟨ss, ws, rfl, hs, hm⟩
      cases hs with
      | nil =>
        cases hm
        obtain ⟨u, r, rfl⟩ := hr
        simp [attrLoop]
      | bare k _ ws hk hs =>
        have hv : skipValue (ws ++ rest) = .ok (ws ++ rest) := by
          obtain ⟨tk, r, he, ht⟩ := attrs_head hs hr
          rw [he]
          simp only [skipValue, if_pos ht]
        simp only [List.cons_append, attrLoop, reduceCtorEq, if_false, if_true, tokenStr_eq hg.head.null, (hkn k hg.head).1 hk, hv, Run.bind]
        exact (ih hg.tail (by simp at hl ⊢; omega) hr).2 ⟨ss, ws, rfl, hs, hm⟩
      | valued k v _ ws hk hv hv' hs =>
        obtain ⟨tk, r, rfl, hr'⟩ := hv.cons
        have hsk : skipValue ((tk :: r) ++ (ws ++ rest)) = .ok (ws ++ rest) := by
          simp only [List.cons_append, skipValue]
          rw [if_neg, ← List.cons_append, skipSexp_complete hv]
          rintro (h | h)
          · obtain ⟨_, u⟩ := tk
            cases h
            exact hv' u rfl
          · exact hr' h
        simp only [List.append_assoc, List.cons_append] at hg hl hsk ⊢
        simp only [attrLoop, reduceCtorEq, if_false, if_true, tokenStr_eq hg.head.null, (hkn k hg.head).1 hk, hsk, Run.bind]
        exact (ih hg.tail.tail.right (by simp at hl ⊢; omega) hr).2 ⟨ss, ws, rfl, hs, hm⟩
      | known k a s w ss ws hk hs hss =>
        simp only [mAll, Run.bind_ok, Run.map_ok] at hm
        obtain ⟨⟨st1, x⟩, hm, ⟨st2, bs⟩, hms, he⟩ := hm
        cases he
        simp only [key, List.append_assoc, List.cons_append] at hg hl ⊢
        simp only [attrLoop, reduceCtorEq, if_false, if_true, tokenStr_eq hg.head.null, findAttr_key.2 ⟨k, hk, rfl⟩, Run.bind_ok, Run.map_ok]
        refine ⟨(ws ++ rest, st1, x), ((hp a).iff hg.tail trivial).2 ⟨s, w, rfl, hs, hm⟩, (rest, _, bs), ?_, rfl⟩
        exact (ih hg.tail.right (by simp at hl ⊢; omega) hr).2 ⟨ss, ws, rfl, hss, hms⟩

theorem ReadsWith.attrs (o : ReadOpts) {h : Attr → Rd α} {W : Attr → σ → List Tk → Prop} {m} (hp : ∀ a, ReadsWith fl Any (h a) (W a) m) :
    ReadsWith fl AtClose (rAttrs h) (Attrs (tokSem o) W) (mAll m) :=
  ⟨fun _ _ _ _ _ h2 => attrLoop_shrinks (fun a => (hp a).shrinks) _ _ _ _ _ _ h2, fun hg hr => attrLoop_iff o hp _ hg (by omega) hr⟩

/-! ### Looking ahead -/

/-- one thing or the other -/
def Either (W : σ → List Tk → Prop) (W' : τ → List Tk → Prop) : σ ⊕ τ → List Tk → Prop
  | .inl s => W s
  | .inr s => W' s

/-! ### Expressions -/

variable (b : Env) (n : Nat) (o : ReadOpts)

theorem reads_expr : ReadsWith fl Any (rExpr b n o) (Written (tokSem o)) (parseExpr b n) := by
  refine ⟨?_, fun hg _ => C65_expr hg⟩
  intro toks st rest st' a h
  obtain ⟨e, ws, h, _⟩ := readExpr_iff.1 h
  exact ⟨ws, h⟩

theorem written_head {e : SExp} {ws : List Tk} (h : Written (tokSem o) e ws) : ∃ tk r, ws = tk :: r ∧ tk.1 ≠ .RPAREN ∧ tk.1 ≠ .KEYWORD ∧
    (tk.1 = .LPAREN → r ≠ []) := by
  cases h with
  | sym tk x h => cases h <;> exact ⟨_, _, rfl, by simp, by simp, by simp⟩
  | lit tk x h => cases h <;> exact ⟨_, _, rfl, by simp, by simp, by simp⟩
  | type => exact ⟨_, _, rfl, by simp, by simp, by simp⟩
  | bool => exact ⟨_, _, rfl, by simp, by simp, by simp⟩
  | app => exact ⟨_, _, rfl, by simp, by simp, by simp⟩
  | appq => exact ⟨_, _, rfl, by simp, by simp, by simp⟩
  | binder => exact ⟨_, _, rfl, by simp, by simp, by simp⟩
  | letE => exact ⟨_, _, rfl, by simp, by simp, by simp⟩
  | annot => exact ⟨_, _, rfl, by simp, by simp, by simp⟩

theorem reads_type (eval : Bool) : ReadsWith fl Any (rType b n o false eval) (Written (tokSem o)) (parseType b n false eval) := by
  have h := (reads_expr (fl := fl) b n o).then (F := Any) fun t => ReadsWith.get (g := fun st => st.checkType b n eval t) fun _ => ReadsWith.pure' (fl := fl) Any t
  refine ⟨h.shrinks, fun hg hr => (h.iff hg hr).trans ?_⟩
  constructor
  · rintro ⟨⟨e, _⟩, ws, rfl, hw, hm⟩
    cases hw with
    | mk _ w _ w' h1 h2 =>
      cases h2
      refine ⟨e, _, rfl, by simpa using h1, ?_⟩
      simp only [Run.bind_ok] at hm
      obtain ⟨⟨st1, t⟩, h3, _, h4, h5⟩ := hm
      cases h5
      simp only [parseType, Run.bind_ok, Run.map_ok]
      exact ⟨_, h3, _, h4, rfl⟩
  · rintro ⟨e, ws, rfl, hw, hm⟩
    simp only [parseType, Run.bind_ok, Run.map_ok] at hm
    obtain ⟨⟨st1, t⟩, h3, _, h4, h5⟩ := hm
    cases h5
    refine ⟨(e, ()), ws, rfl, by simpa using Both.mk e ws () [] hw (show NoTok () [] from rfl), ?_⟩
    simp only [Run.bind_ok]
    exact ⟨_, h3, _, h4, rfl⟩

theorem both_iff {W : σ → List Tk → Prop} {W' : τ → List Tk → Prop} {s : σ × τ} {ws : List Tk} :
    Both W W' s ws ↔ ∃ w w', ws = w ++ w' ∧ W s.1 w ∧ W' s.2 w' := by
  constructor
  · intro h
    cases h with
    | mk s w t w' h h' => exact ⟨w, w', rfl, h, h'⟩
  · rintro ⟨w, w', rfl, h, h'⟩
    exact .mk _ _ _ _ h h'

/-- reading and then acting -/
theorem ReadsWith.end {F : List Tk → Prop} {p : Rd α} {f : α → Rd β} {W : σ → List Tk → Prop} {m} {g : α → Unit → State → Run (State × β)}
    (h1 : ReadsWith fl F p W m) (h2 : ∀ a, ReadsWith fl F (f a) NoTok (g a)) : ReadsWith fl F (p >>= f) W fun s st => (m s st).bind fun q => g q.2 () q.1 := by
  refine (h1.bind h2 fun _ w' rest _ hw hr => ?_).to ?_ ?_
  · cases hw; exact hr
  · rintro ⟨s, _⟩ ws _ h
    obtain ⟨w, w', rfl, h1, h2⟩ := both_iff.1 h
    cases h2
    exact ⟨s, by simpa using h1, fun _ => rfl⟩
  · intro s ws _ h
    exact ⟨(s, ()), both_iff.2 ⟨ws, [], by simp, h, rfl⟩, fun _ => rfl⟩

theorem reads_formula : ReadsWith fl Any (rFormula b n o) (Written (tokSem o)) (parseFormula b n) := by
  refine ((reads_expr (fl := fl) b n o).end fun t => ReadsWith.get (g := fun st => st.typeCheckAs b n t tBool) fun _ => ReadsWith.pure' (fl := fl) Any t).to ?_ ?_ <;>
  · refine fun e ws _ h => ⟨e, h, fun st => ?_⟩
    unfold parseFormula
    cases parseExpr b n e st with
    | ok p =>
      simp only [Run.bind]
      cases p.1.typeCheckAs b n p.2 tBool <;> rfl
    | _ => rfl

theorem startsQuote_iff {w r : List Tk} (hg : GoodToks fl (w ++ r)) (hw : ∃ tk r', w = tk :: r' ∧ (tk.1 = .LPAREN → r' ≠ [])) :
    startsQuote (w ++ r) = true ↔ ∃ u r', w = (.LPAREN, u) :: (.SYMBOL, bytes "eo::quote") :: r' := by
  obtain ⟨⟨k, u⟩, r', rfl, hr⟩ := hw
  match r', hr with
  | [], hr =>
    constructor
    · intro h
      match r, h with
      | t2 :: r, h =>
        simp only [List.cons_append, List.nil_append, startsQuote, Bool.and_eq_true, decide_eq_true_eq] at h
        exact absurd rfl (hr h.1.1)
      | [], h => simp [startsQuote] at h
    · rintro ⟨u, r', h⟩
      simp at h
  | (k2, u2) :: r2, hr =>
    have h0 := hg (k2, u2) (by simp)
    simp only [List.cons_append, startsQuote, Bool.and_eq_true, decide_eq_true_eq, tokenStr_eq h0.null]
    constructor
    · rintro ⟨⟨rfl, rfl⟩, rfl⟩
      exact ⟨u, r2, rfl⟩
    · rintro ⟨u, r', h⟩
      cases h
      exact ⟨⟨rfl, rfl⟩, rfl⟩

theorem rType_eq (toks : List Tk) (st : State) (h : startsQuote toks = false) : rType b n o true false toks st = rType b n o false false toks st := by
  unfold rType
  simp [h]

theorem reads_argType : ReadsWith fl Any (rType b n o true false) (ArgType (tokSem o)) (parseType b n true false) := by
  have hq := (reads_expr (fl := fl) b n o).then (F := Any) fun t => ReadsWith.get (g := fun _ => if t.kind = PARAM then .ok () else .err) fun _ =>
    ReadsWith.eat (t := .RPAREN) (q := fun _ => (pure (Term.node QUOTE_TYPE [t]) : Rd Term)) (ReadsWith.pure' (fl := fl) Any (Term.node QUOTE_TYPE [t]))
  have ht := reads_type (fl := fl) b n o false
  have hdrop : ∀ toks, startsQuote toks = true → ∃ t1 t2 r, toks = t1 :: t2 :: r := by
    intro toks h
    match toks, h with
    | t1 :: t2 :: r, h => exact ⟨t1, t2, r, rfl⟩
  refine ⟨?_, ?_⟩
  · intro toks st rest st' a h
    cases hs : startsQuote toks with
    | false => rw [rType_eq b n o _ _ hs] at h; exact ht.shrinks _ _ _ _ _ h
    | true =>
      obtain ⟨t1, t2, r, rfl⟩ := hdrop toks hs
      simp only [rType, hs, Bool.and_self, if_true] at h
      obtain ⟨v, hv⟩ := hq.shrinks _ _ _ _ _ h
      exact ⟨t1 :: t2 :: v, by simpa using hv⟩
  · intro toks st rest st' a hg hr
    cases hs : startsQuote toks with
    | false =>
      rw [rType_eq b n o _ _ hs, ht.iff hg hr]
      constructor
      · rintro ⟨e, ws, rfl, hw, hm⟩
        obtain ⟨tk, r, he, _, _, h1⟩ := written_head o hw
        refine ⟨.annot e, ws, rfl, .expr e ws ?_ hw, hm⟩
        intro u r' hc
        rw [(startsQuote_iff hg ⟨tk, r, he, h1⟩).2 ⟨u, r', hc⟩] at hs
        cases hs
      · rintro ⟨e, ws, rfl, hw, hm⟩
        cases hw with
        | quote e u u' w hw =>
          have := (startsQuote_iff (fl := fl) hg ⟨_, _, rfl, by simp⟩).2 ⟨u, w ++ [(.RPAREN, u')], rfl⟩
          rw [this] at hs
          cases hs
        | expr e _ h1 hw => exact ⟨e, ws, rfl, hw, hm⟩
    | true =>
      obtain ⟨t1, t2, r, rfl⟩ := hdrop toks hs
      simp only [rType, hs, Bool.and_self, if_true]
      refine (hq.iff hg.tail.tail hr).trans ?_
      obtain ⟨u, r', h1⟩ := (startsQuote_iff (w := t1 :: t2 :: r) (r := []) (by simpa using hg) ⟨_, _, rfl, by simp⟩).1 (by simpa using hs)
      cases h1
      constructor
      · rintro ⟨⟨e, _⟩, ws, rfl, hw, hm⟩
        obtain ⟨w, w', rfl, hw1, u', w1, rfl, hw2⟩ := both_iff.1 hw
        cases hw2
        simp only [Run.bind_ok, Run.ite_err'] at hm
        obtain ⟨⟨st1, t⟩, h3, _, ⟨h4, _⟩, h5⟩ := hm
        cases h5
        refine ⟨.app (bytes "eo::quote") [e], (.LPAREN, u) :: (.SYMBOL, bytes "eo::quote") :: w ++ [(.RPAREN, u')], by simp, .quote e u u' w hw1, ?_⟩
        simp only [parseType]
        rw [if_pos (show bytes "eo::quote" = nm "eo::quote" from rfl), h3]
        simp only [Run.bind, if_pos h4]
      · rintro ⟨e, ws, h, hw, hm⟩
        cases hw with
        | quote e u1 u' w hw =>
          cases h
          refine ⟨(e, ()), w ++ [(.RPAREN, u')], by simp, both_iff.2 ⟨w, [(.RPAREN, u')], rfl, hw, u', [], rfl, rfl⟩, ?_⟩
          simp only [parseType] at hm
          rw [if_pos (show bytes "eo::quote" = nm "eo::quote" from rfl)] at hm
          simp only [Run.bind_ok, Run.ite_err'] at hm ⊢
          obtain ⟨⟨st1, t⟩, h3, h4, h5⟩ := hm
          exact ⟨(st1, t), h3, (), ⟨h4, trivial⟩, h5⟩
        | expr e _ h1 hw =>
          exfalso
          obtain ⟨tk, r, he, _, _, h2⟩ := written_head o hw
          rw [h] at hg hs
          obtain ⟨u, r', h3⟩ := (startsQuote_iff hg ⟨tk, r, he, h2⟩).1 hs
          exact h1 u r' h3

theorem mAll_parseList (es : List SExp) : mAll (parseExpr b n) es = parseList b n es := by
  induction es with
  | nil => funext st; rfl
  | cons e es ih => funext st; simp only [mAll, parseList, ih]

theorem mAll_parseTypeList (q : Bool) (es : List SExp) : mAll (parseType b n q false) es = parseTypeList b n q es := by
  induction es with
  | nil => funext st; rfl
  | cons e es ih => funext st; simp only [mAll, parseTypeList, ih]

theorem reads_exprList : ReadsWith fl Any (rExprList b n o) (ExprList (tokSem o)) (parseList b n) := by
  have := (reads_expr (fl := fl) b n o).list fun s ws _ h => by obtain ⟨tk, r, h, h', _⟩ := written_head o h; exact ⟨tk, r, h, h'⟩
  rwa [funext (mAll_parseList b n)] at this

theorem reads_typeList : ReadsWith fl Any (rTypeList b n o false) (ExprList (tokSem o)) (parseTypeList b n false) := by
  have := (reads_type (fl := fl) b n o false).list fun s ws _ h => by obtain ⟨tk, r, h, h', _⟩ := written_head o h; exact ⟨tk, r, h, h'⟩
  rwa [funext (mAll_parseTypeList b n false)] at this

theorem argType_head {e : SExp} {ws : List Tk} (h : ArgType (tokSem o) e ws) : ∃ tk r, ws = tk :: r ∧ tk.1 ≠ .RPAREN := by
  cases h with
  | quote => exact ⟨_, _, rfl, by simp⟩
  | expr e _ _ h => obtain ⟨tk, r, h, h', _⟩ := written_head o h; exact ⟨tk, r, h, h'⟩

theorem reads_argTypes : ReadsWith fl Any (rTypeList b n o true) (Parens (Many (ArgType (tokSem o)))) (parseTypeList b n true) := by
  have := (reads_argType (fl := fl) b n o).list fun s ws _ h => argType_head o h
  rwa [funext (mAll_parseTypeList b n true)] at this

theorem name_head {x : Name} {ws : List Tk} (h : NameW (tokSem o) x ws) : ∃ tk r, ws = tk :: r ∧ tk.1 ≠ .RPAREN := by
  cases h with
  | mk tk _ h => cases h <;> exact ⟨_, _, rfl, by simp⟩

theorem mAll_names (es : List Name) : mAll (fun (a : Name) st => .ok (st, a)) es = fun st => .ok (st, es) := by
  induction es with
  | nil => funext st; rfl
  | cons e es ih => funext st; simp only [mAll, ih, Run.bind, Run.map]

theorem reads_nameList : ReadsWith fl Any rNameList (Parens (Many (NameW (tokSem o)))) fun a st => .ok (st, a) := by
  have := (reads_name (fl := fl) o).list fun s ws _ h => name_head o h
  rwa [funext mAll_names] at this

/-! ### Pairs -/

/-- something and a right parenthesis -/
def Before (W : σ → List Tk → Prop) (s : σ) (ws : List Tk) : Prop := ∃ u w, ws = w ++ [(.RPAREN, u)] ∧ W s w

theorem parens_before {W : σ → List Tk → Prop} {s : σ} {ws : List Tk} : Parens W s ws ↔ After1 .LPAREN (Before W) s ws := by
  constructor
  · intro h
    cases h with
    | mk u u' w h => exact ⟨u, _, rfl, u', w, rfl, h⟩
  · rintro ⟨u, _, rfl, u', w, rfl, h⟩
    exact .mk s u u' w h

/-- a right parenthesis after something -/
theorem ReadsWith.close {F : List Tk → Prop} {p : Rd α} {f : α → Rd β} {W : σ → List Tk → Prop} {m} {g : α → Unit → State → Run (State × β)}
    (h1 : ReadsWith fl F p W m) (h2 : ∀ a, ReadsWith fl Any (f a) NoTok (g a)) (hF : ∀ r, AtClose r → F r) :
    ReadsWith fl Any (p >>= fun a => rEat .RPAREN >>= fun _ => f a) (Before W) fun s st => (m s st).bind fun q => g q.2 () q.1 := by
  refine (h1.bind (fun a => ReadsWith.eat (t := .RPAREN) (q := fun _ => f a) (h2 a)) fun _ w' rest _ hw hr => ?_).to ?_ ?_
  · obtain ⟨u, w, rfl, hw⟩ := hw
    exact hF _ ⟨u, _, rfl⟩
  · rintro ⟨s, _⟩ ws _ h
    obtain ⟨w, w', rfl, h1, u, w1, rfl, h2⟩ := both_iff.1 h
    cases h2
    exact ⟨s, ⟨u, w, rfl, h1⟩, fun _ => rfl⟩
  · rintro s ws _ ⟨u, w, rfl, h⟩
    exact ⟨(s, ()), both_iff.2 ⟨w, [(.RPAREN, u)], rfl, h, u, [], rfl, rfl⟩, fun _ => rfl⟩

/-- read a pair of expressions -/
def parseTwo (p : SExp × SExp) (st : State) : Run (State × Term × Term) :=
  (parseExpr b n p.1 st).bind fun q => (parseExpr b n p.2 q.1).map fun r => (r.1, q.2, r.2)

theorem reads_two : ReadsWith fl Any (rTwo b n o) (Before (Both (Written (tokSem o)) (Written (tokSem o)))) (parseTwo b n) := by
  refine ((reads_expr (fl := fl) b n o).then (F := Any) fun x => (reads_expr (fl := fl) b n o).close (fun y => ReadsWith.pure' Any (x, y)) fun _ _ => trivial).to ?_ ?_
  · rintro ⟨e, e'⟩ ws _ h
    obtain ⟨w, w', rfl, h1, u, w1, rfl, h2⟩ := both_iff.1 h
    refine ⟨(e, e'), ⟨u, w ++ w1, by simp, both_iff.2 ⟨w, w1, rfl, h1, h2⟩⟩, fun st => ?_⟩
    simp only [parseTwo]
    cases parseExpr b n e st with
    | ok p => simp only [Run.bind]; cases parseExpr b n e' p.1 <;> rfl
    | _ => rfl
  · rintro ⟨e, e'⟩ ws _ ⟨u, w, rfl, h⟩
    obtain ⟨w, w', rfl, h1, h2⟩ := both_iff.1 h
    refine ⟨(e, e'), both_iff.2 ⟨w, w' ++ [(.RPAREN, u)], by simp, h1, u, w', rfl, h2⟩, fun st => ?_⟩
    simp only [parseTwo]
    cases parseExpr b n e st with
    | ok p => simp only [Run.bind]; cases parseExpr b n e' p.1 <;> rfl
    | _ => rfl

theorem mAll_parsePairs (es : List (SExp × SExp)) : mAll (parseTwo b n) es = parsePairs b n es := by
  induction es with
  | nil => funext st; rfl
  | cons e es ih =>
    funext st
    obtain ⟨e, e'⟩ := e
    simp only [mAll, parsePairs, ih, parseTwo]
    cases parseExpr b n e st with
    | ok p => simp only [Run.bind]; cases parseExpr b n e' p.1 <;> rfl
    | _ => rfl

theorem many_congr {W W' : σ → List Tk → Prop} (h : ∀ s ws, W s ws ↔ W' s ws) {ss ws} : Many W ss ws ↔ Many W' ss ws := by
  constructor
  · intro hm
    induction hm with
    | nil => exact .nil
    | cons s w ss ws h1 _ ih => exact .cons _ _ _ _ ((h _ _).1 h1) ih
  · intro hm
    induction hm with
    | nil => exact .nil
    | cons s w ss ws h1 _ ih => exact .cons _ _ _ _ ((h _ _).2 h1) ih

/-- a list of things in parentheses -/
theorem ReadsWith.listOf {p : Rd α} {W : σ → List Tk → Prop} {m} (h : ReadsWith fl Any p (Before W) m) :
    ReadsWith fl Any (rEat .LPAREN >>= fun _ => rItems p) (Parens (Many (Parens W))) (mAll m) := by
  have hi : ∀ {ss ws}, Parens (Many (Parens W)) ss ws ↔ After1 .LPAREN (Closing (After1 .LPAREN (Before W))) ss ws := by
    intro ss ws
    rw [parens_iff]
    unfold After1 Closing
    simp only [many_congr (W := Parens W) (fun s ws => parens_before)]
    rfl
  exact (ReadsWith.eat h.items).to (fun s _ _ h => ⟨s, hi.2 h, fun _ => rfl⟩) (fun s _ _ h => ⟨s, hi.1 h, fun _ => rfl⟩)

theorem reads_pairs : ReadsWith fl Any (rPairs b n o) (PairList (tokSem o)) (parsePairs b n) := by
  have := (reads_two (fl := fl) b n o).listOf
  rwa [funext (mAll_parsePairs b n)] at this

/-! ### Parameters -/

/-- nothing can be written -/
def Never (_ : σ) (_ : List Tk) : Prop := False

theorem ReadsWith.err' (F : List Tk → Prop) (m : σ → State → Run (State × α)) : ReadsWith fl F Rd.err Never m :=
  ⟨fun _ _ _ _ _ h => (by cases h), fun _ _ => ⟨fun h => (by cases h), fun ⟨_, _, _, h, _⟩ => h.elim⟩⟩

/-- the attribute of a parameter; the expression of `:restrict` is not kept -/
def dropExpr : PAttr → PAttr
  | .restrict _ => .restrict .type
  | a => a

/-- one attribute of a parameter -/
def paramAttr (v : Term) (a : PAttr) (st : State) : Run (State × PAttr) :=
  match a with
  | .list => .ok ({ st with decls := (st.decls.markConstructorKind v .LIST none).1 }, .list)
  | .restrict e => (parseExpr b n e st).map fun p => (p.1, .restrict .type)
  | a => .ok (st, a)

theorem reads_paramAttr (rich : Bool) (v : Term) (a : Attr) :
    ReadsWith fl Any (rParamAttr b n o rich v a) (ParamAttr (tokSem o) rich a) (paramAttr b n v) := by
  have bad : (∀ s ws, ¬ ParamAttr (tokSem o) rich a s ws) → ReadsWith fl Any (Rd.err : Rd PAttr) (ParamAttr (tokSem o) rich a) (paramAttr b n v) := fun h =>
    (ReadsWith.err' (σ := PAttr) Any (paramAttr b n v)).to (fun s ws _ h => h.elim) (fun s ws _ h' => absurd h' (h s ws))
  cases a with
  | LIST =>
    refine (ReadsWith.upd (g := fun st => .ok { st with decls := (st.decls.markConstructorKind v .LIST none).1 })
      (f := fun _ => (pure .list : Rd PAttr)) (ReadsWith.pure' (fl := fl) Any PAttr.list)).to ?_ ?_
    · rintro _ ws _ h
      cases h
      exact ⟨.list, .list, fun _ => rfl⟩
    · rintro s ws _ h
      cases h
      exact ⟨(), rfl, fun _ => rfl⟩
  | IMPLICIT =>
    cases rich with
    | false => exact bad fun s ws h => by cases h with | implicit h => cases h
    | true =>
      refine (ReadsWith.pure' (fl := fl) Any PAttr.implicit).to ?_ ?_
      · rintro _ ws _ h
        cases h
        exact ⟨.implicit, .implicit rfl, fun _ => rfl⟩
      · rintro s ws _ h
        cases h
        exact ⟨(), rfl, fun _ => rfl⟩
  | OPAQUE =>
    cases rich with
    | false => exact bad fun s ws h => by cases h with | opq h => cases h
    | true =>
      refine (ReadsWith.pure' (fl := fl) Any PAttr.opq).to ?_ ?_
      · rintro _ ws _ h
        cases h
        exact ⟨.opq, .opq rfl, fun _ => rfl⟩
      · rintro s ws _ h
        cases h
        exact ⟨(), rfl, fun _ => rfl⟩
  | SYNTAX =>
    cases rich with
    | false => exact bad fun s ws h => by cases h with | synt _ _ h => cases h
    | true =>
      refine ((reads_litKind (fl := fl) o).end fun _ => ReadsWith.pure' (fl := fl) Any PAttr.synt).to ?_ ?_
      · rintro k ws _ h
        exact ⟨.synt, .synt k ws rfl h, fun _ => rfl⟩
      · rintro s ws _ h
        cases h with
        | synt k _ _ h => exact ⟨k, h, fun _ => rfl⟩
  | RESTRICT =>
    cases rich with
    | false => exact bad fun s ws h => by cases h with | restrict _ _ h => cases h
    | true =>
      refine ((reads_expr (fl := fl) b n o).end fun _ => ReadsWith.pure' (fl := fl) Any (PAttr.restrict .type)).to ?_ ?_
      · rintro e ws _ h
        refine ⟨.restrict e, .restrict e ws rfl h, fun st => ?_⟩
        simp only [paramAttr]
        cases parseExpr b n e st <;> rfl
      · rintro s ws _ h
        cases h with
        | restrict e _ _ h =>
          refine ⟨e, h, fun st => ?_⟩
          simp only [paramAttr]
          cases parseExpr b n e st <;> rfl
  | _ => exact bad fun s ws h => by cases h

/-- all attributes of a parameter -/
theorem mAll_paramAttrs {rich : Bool} (v : Term) : ∀ {as : List PAttr} {ws : List Tk}, Attrs (tokSem o) (ParamAttr (tokSem o) rich) as ws →
    ∀ st, mAll (paramAttr b n v) as st = (paramAttrs b n rich v as st).map fun st => (st, as.map dropExpr) := by
  intro as ws h
  induction h with
  | nil => intro st; rfl
  | bare _ _ _ _ _ ih => exact ih
  | valued _ _ _ _ _ _ _ _ ih => exact ih
  | known k a s w ss ws _ h1 _ ih =>
    intro st
    cases h1 with
    | list =>
      simp only [mAll, paramAttr, Run.bind, ih, paramAttrs, List.map_cons, dropExpr]
      generalize paramAttrs b n rich v ss _ = r
      cases r <;> rfl
    | restrict e _ hr _ =>
      subst hr
      simp only [mAll, paramAttr, paramAttrs, if_true, List.map_cons, dropExpr]
      cases parseExpr b n e st with
      | ok p =>
        simp only [Run.map, Run.bind, ih]
        generalize paramAttrs b n true v ss _ = r
        cases r <;> rfl
      | _ => rfl
    | implicit hr | opq hr | synt _ _ hr =>
      subst hr
      simp only [mAll, paramAttr, Run.bind, ih, paramAttrs, if_true, List.map_cons, dropExpr]
      generalize paramAttrs b n true v ss _ = r
      cases r <;> rfl

/-- what is kept of a parameter -/
def dropExprs (v : SParam) : SParam := ⟨v.name, .type, v.attrs.map dropExpr⟩

/-- one parameter -/
def bindParam (rich : Bool) (v : SParam) (st : State) : Run (State × Term × SParam) :=
  (parseType b n false false v.type st).bind fun p =>
  let q := p.1.mkSymbol PARAM v.name p.2
  (paramAttrs b n rich q.2 v.attrs (q.1.bind v.name q.2)).map fun st => (st, q.2, dropExprs v)

/-- a parameter after its left parenthesis -/
inductive ParamTail (rich : Bool) : SParam → List Tk → Prop
  | mk (x e as w w' w'' u) : NameW (tokSem o) x w → Written (tokSem o) e w' → Attrs (tokSem o) (ParamAttr (tokSem o) rich) as w'' →
      ParamTail rich ⟨x, e, as⟩ (w ++ (w' ++ (w'' ++ [(.RPAREN, u)])))

theorem reads_param (rich : Bool) : ReadsWith fl Any (rParam b n o rich) (ParamTail o rich) (bindParam b n rich) := by
  refine ((reads_name (fl := fl) o).then (F := Any) fun x => (reads_type (fl := fl) b n o false).then (F := Any) fun t =>
    ReadsWith.new (g := fun st => let q := st.mkSymbol PARAM x t; (q.1.bind x q.2, q.2)) fun v =>
      (ReadsWith.attrs o fun a => reads_paramAttr (fl := fl) b n o rich v a).close (fun as => ReadsWith.pure' Any (v, (⟨x, .type, as⟩ : SParam))) fun _ h => h).to ?_ ?_
  · rintro ⟨x, e, as⟩ ws _ h
    obtain ⟨w, w', rfl, h1, h2⟩ := both_iff.1 h
    obtain ⟨w2, w3, rfl, h4, u, w4, rfl, h3⟩ := both_iff.1 h2
    refine ⟨⟨x, e, as⟩, .mk x e as w w2 w4 u h1 h4 h3, fun st => ?_⟩
    simp only [bindParam, Run.bind]
    cases parseType b n false false e st with
    | ok p =>
      simp only [mAll_paramAttrs b n o _ h3]
      generalize paramAttrs b n rich _ as _ = r
      cases r <;> rfl
    | _ => rfl
  · rintro _ ws _ ⟨x, e, as, w, w', w'', u, h1, h2, h3⟩
    refine ⟨(x, e, as), both_iff.2 ⟨w, _, rfl, h1, both_iff.2 ⟨w', _, rfl, h2, u, w'', rfl, h3⟩⟩, fun st => ?_⟩
    simp only [bindParam, Run.bind]
    cases parseType b n false false e st with
    | ok p =>
      simp only [mAll_paramAttrs b n o _ h3]
      generalize paramAttrs b n rich _ as _ = r
      cases r <;> rfl
    | _ => rfl

theorem param_tail {rich : Bool} {v : SParam} {ws : List Tk} : Param (tokSem o) rich v ws ↔ After1 .LPAREN (ParamTail o rich) v ws := by
  constructor
  · rintro ⟨x, e, as, w, w', w'', u, u', h1, h2, h3⟩
    exact ⟨u, _, rfl, by simpa using ParamTail.mk x e as w w' w'' u' h1 h2 h3⟩
  · rintro ⟨u, _, rfl, ⟨x, e, as, w, w', w'', u', h1, h2, h3⟩⟩
    simpa using Param.mk x e as w w' w'' u u' h1 h2 h3

/-- all parameters -/
def bindParams' (rich : Bool) (vs : List SParam) (st : State) : Run (State × List (Term × SParam)) :=
  (bindParams b n rich vs st).map fun r => (r.1, r.2.map fun v => (v.1, dropExprs v.2))

theorem mAll_bindParams (rich : Bool) (vs : List SParam) : mAll (bindParam b n rich) vs = bindParams' b n rich vs := by
  induction vs with
  | nil => funext st; rfl
  | cons v vs ih =>
    funext st
    simp only [mAll, bindParams, bindParams', ih, bindParam]
    cases parseType b n false false v.type st with
    | ok p =>
      simp only [Run.bind]
      cases paramAttrs b n rich _ v.attrs _ with
      | ok st =>
        simp only [Run.map, Run.bind]
        generalize bindParams b n rich vs _ = r
        cases r <;> rfl
      | _ => rfl
    | _ => rfl

theorem reads_params (rich : Bool) : ReadsWith fl Any (rParams b n o rich) (ParamList (tokSem o) rich) (bindParams' b n rich) := by
  have hi : ∀ {ss ws}, ParamList (tokSem o) rich ss ws ↔ After1 .LPAREN (Closing (After1 .LPAREN (ParamTail o rich))) ss ws := by
    intro ss ws
    rw [ParamList, parens_iff]
    unfold After1 Closing
    simp only [many_congr (W := Param (tokSem o) rich) (fun s ws => param_tail o)]
    rfl
  have := (ReadsWith.eat (t := .LPAREN) (q := fun _ => rItems (rParam b n o rich)) (reads_param (fl := fl) b n o rich).items).to (W' := ParamList (tokSem o) rich)
    (m' := mAll (bindParam b n rich)) (fun s _ _ h => ⟨s, hi.2 h, fun _ => rfl⟩) (fun s _ _ h => ⟨s, hi.1 h, fun _ => rfl⟩)
  rwa [funext (mAll_bindParams b n rich)] at this

theorem implicit_drop (v : SParam) : (dropExprs v).implicit = v.implicit := by
  simp only [SParam.implicit, dropExprs, List.any_map]
  congr 1
  funext a
  cases a <;> rfl

theorem opq_drop (v : SParam) : (dropExprs v).opq = v.opq := by
  simp only [SParam.opq, dropExprs, List.any_map]
  congr 1
  funext a
  cases a <;> rfl

/-! ### Attributes of constants, definitions and rules -/

/-- one attribute of a constant -/
def parseAttr' (a : SAttr) (st : State) : Run (State × Attr × Option Term) := (parseAttr b n a st).map fun p => (p.1, a.attr, p.2)

theorem mAll_parseAttr (as : List SAttr) : mAll (parseAttr' b n) as = parseAttrList b n as := by
  induction as with
  | nil => funext st; rfl
  | cons v vs ih =>
    funext st
    simp only [mAll, parseAttrList, parseAttr', ih]
    cases parseAttr b n v st <;> rfl

theorem reads_constAttr (a : Attr) : ReadsWith fl Any (rConstAttr b n o a) (ConstAttr (tokSem o) a) (parseAttr' b n) := by
  have bad : (∀ s ws, ¬ ConstAttr (tokSem o) a s ws) → ReadsWith fl Any (Rd.err : Rd (Attr × Option Term)) (ConstAttr (tokSem o) a) (parseAttr' b n) := fun h =>
    (ReadsWith.err' (σ := SAttr) Any (parseAttr' b n)).to (fun s ws _ h => h.elim) (fun s ws _ h' => absurd h' (h s ws))
  have bare : a ∈ [Attr.RIGHT_ASSOC, .LEFT_ASSOC] → ReadsWith fl Any (pure (a, none)) (ConstAttr (tokSem o) a) (parseAttr' b n) := by
    intro ha
    have hm : ∀ st, parseAttr' b n ⟨a, none, none⟩ st = .ok (st, a, none) := by
      intro st
      simp at ha
      rcases ha with rfl | rfl <;> rfl
    refine (ReadsWith.pure' (fl := fl) Any (a, (none : Option Term))).to ?_ ?_
    · rintro _ ws _ h
      cases h
      exact ⟨⟨a, none, none⟩, .bare a ha, hm⟩
    · rintro s ws _ h
      cases h with
      | bare => exact ⟨(), rfl, hm⟩
      | expr _ e _ h => exfalso; simp at ha; rcases ha with rfl | rfl <;> simp at h
      | pair => simp at ha
  have expr : a ∈ [Attr.RIGHT_ASSOC_NIL, .LEFT_ASSOC_NIL, .RIGHT_ASSOC_NS_NIL, .LEFT_ASSOC_NS_NIL, .CHAINABLE, .PAIRWISE, .BINDER, .ARG_LIST] →
      ReadsWith fl Any (rExpr b n o >>= fun t => pure (a, some t)) (ConstAttr (tokSem o) a) (parseAttr' b n) := by
    intro ha
    have hm : ∀ e st, parseAttr' b n ⟨a, some e, none⟩ st = (parseExpr b n e st).bind fun q => .ok (q.1, a, some q.2) := by
      intro e st
      simp only [List.mem_cons, List.not_mem_nil, or_false] at ha
      rcases ha with rfl | rfl | rfl | rfl | rfl | rfl | rfl | rfl <;>
        (simp only [parseAttr', parseAttr, or_true, true_or, if_true]; cases parseExpr b n e st <;> rfl)
    refine ((reads_expr (fl := fl) b n o).end fun t => ReadsWith.pure' (fl := fl) Any (a, some t)).to ?_ ?_
    · rintro e ws _ h
      exact ⟨⟨a, some e, none⟩, .expr a e ws ha h, hm e⟩
    · rintro s ws _ h
      cases h with
      | bare _ h => exfalso; simp at h; rcases h with rfl | rfl <;> simp at ha
      | expr _ e _ _ h => exact ⟨e, h, hm e⟩
      | pair => simp at ha
  cases a with
  | RIGHT_ASSOC => exact bare (by simp)
  | LEFT_ASSOC => exact bare (by simp)
  | LET_BINDER =>
    refine (ReadsWith.eat (t := .LPAREN) (q := fun _ => rTwo b n o >>= fun p => pure (Attr.LET_BINDER, some (Term.node TUPLE [p.1, p.2])))
      ((reads_two (fl := fl) b n o).end fun p => ReadsWith.pure' (fl := fl) Any (Attr.LET_BINDER, some (Term.node TUPLE [p.1, p.2])))).to ?_ ?_
    · rintro ⟨e, e'⟩ ws _ h
      refine ⟨⟨.LET_BINDER, some e, some e'⟩, .pair e e' ws (parens_before.2 h), fun st => ?_⟩
      simp only [parseAttr', parseAttr, parseTwo]
      cases parseExpr b n e st with
      | ok p => simp only [Run.bind]; cases parseExpr b n e' p.1 <;> rfl
      | _ => rfl
    · rintro s ws _ h
      cases h with
      | bare _ h => simp at h
      | expr _ _ _ h => simp at h
      | pair e e' _ h =>
        refine ⟨(e, e'), parens_before.1 h, fun st => ?_⟩
        simp only [parseAttr', parseAttr, parseTwo]
        cases parseExpr b n e st with
        | ok p => simp only [Run.bind]; cases parseExpr b n e' p.1 <;> rfl
        | _ => rfl
  | _ =>
    first
    | exact expr (by simp)
    | exact bad fun s ws h => by
        cases h with
        | bare _ h => simp at h
        | expr _ _ _ h => simp at h

theorem reads_constAttrs : ReadsWith fl AtClose (rAttrs (rConstAttr b n o)) (Attrs (tokSem o) (ConstAttr (tokSem o))) (parseAttrList b n) := by
  have := ReadsWith.attrs o fun a => reads_constAttr (fl := fl) b n o a
  rwa [funext (mAll_parseAttr b n)] at this

/-- one attribute `:type` -/
def checkTypeAttr (e : Term) (ty : SExp) (st : State) : Run (State × Unit) :=
  (parseExpr b n ty st).bind fun q => (q.1.typeCheckAs b n e q.2).map fun _ => (q.1, ())

theorem reads_typeAttr (e : Term) (a : Attr) : ReadsWith fl Any (rTypeAttr b n o e a) (TypeAttr (tokSem o) a) (checkTypeAttr b n e) := by
  have bad : (∀ s ws, ¬ TypeAttr (tokSem o) a s ws) → ReadsWith fl Any (Rd.err : Rd Unit) (TypeAttr (tokSem o) a) (checkTypeAttr b n e) := fun h =>
    (ReadsWith.err' (σ := SExp) Any (checkTypeAttr b n e)).to (fun s ws _ h => h.elim) (fun s ws _ h' => absurd h' (h s ws))
  cases a with
  | TYPE =>
    have hm : ∀ ty st, checkTypeAttr b n e ty st = (parseExpr b n ty st).bind fun q => (q.1.typeCheckAs b n e q.2).bind fun _ => .ok (q.1, ()) := by
      intro ty st
      unfold checkTypeAttr
      cases parseExpr b n ty st with
      | ok p => simp only [Run.bind]; cases p.1.typeCheckAs b n e p.2 <;> rfl
      | _ => rfl
    refine ((reads_expr (fl := fl) b n o).end fun t => ReadsWith.get (g := fun st => st.typeCheckAs b n e t) fun _ => ReadsWith.pure' (fl := fl) Any ()).to ?_ ?_
    · rintro ty ws _ h
      exact ⟨ty, .mk ty ws h, hm ty⟩
    · rintro ty ws _ ⟨_, _, h⟩
      exact ⟨ty, h, hm ty⟩
  | _ => exact bad fun s ws h => by cases h

theorem mAll_checkTypeAttr (e : Term) (tys : List SExp) (st : State) : (mAll (checkTypeAttr b n e) tys st).map (·.1) = checkTypeAttrs b n e tys st := by
  induction tys generalizing st with
  | nil => rfl
  | cons ty tys ih =>
    simp only [mAll, checkTypeAttrs, checkTypeAttr]
    cases parseExpr b n ty st with
    | ok p =>
      simp only [Run.bind]
      cases p.1.typeCheckAs b n e p.2 with
      | ok _ =>
        simp only [Run.bind, Run.map, ← ih]
        generalize mAll (checkTypeAttr b n e) tys p.1 = r
        cases r <;> rfl
      | _ => rfl
    | _ => rfl

theorem reads_typeAttrs (e : Term) : ReadsWith fl AtClose (rAttrs (rTypeAttr b n o e)) (Attrs (tokSem o) (TypeAttr (tokSem o))) (mAll (checkTypeAttr b n e)) :=
  ReadsWith.attrs o fun a => reads_typeAttr (fl := fl) b n o e a

theorem reads_ruleAttr (a : Attr) : ReadsWith fl Any (rRuleAttr a) (SorryAttr a) fun a st => .ok (st, a) := by
  have bad : (∀ s ws, ¬ SorryAttr a s ws) → ReadsWith fl Any (Rd.err : Rd Unit) (SorryAttr a) fun a st => .ok (st, a) := fun h =>
    (ReadsWith.err' (σ := Unit) Any fun a st => .ok (st, a)).to (fun s ws _ h => h.elim) (fun s ws _ h' => absurd h' (h s ws))
  cases a with
  | SORRY =>
    refine (ReadsWith.pure' (fl := fl) Any ()).to ?_ ?_
    · rintro _ ws _ h
      cases h
      exact ⟨(), .mk, fun _ => rfl⟩
    · rintro s ws _ h
      cases h
      exact ⟨(), rfl, fun _ => rfl⟩
  | _ => exact bad fun s ws h => by cases h

theorem reads_ruleAttrs : ReadsWith fl AtClose (rAttrs rRuleAttr) (Attrs (tokSem o) SorryAttr) fun a st => .ok (st, a) := by
  have h : ∀ (es : List Unit), mAll (fun (a : Unit) st => .ok (st, a)) es = fun st => .ok (st, es) := by
    intro es
    induction es with
    | nil => funext st; rfl
    | cons e es ih => funext st; simp only [mAll, ih, Run.bind, Run.map]
  have := ReadsWith.attrs o fun a => reads_ruleAttr (fl := fl) a
  rwa [funext h] at this

/-! ### Datatypes -/

theorem Run.bind_bind' {α β γ : Type} (r : Run α) (f : α → Run β) (g : β → Run γ) : (r.bind f).bind g = r.bind fun a => (f a).bind g := by
  cases r <;> rfl
theorem Run.map_eq' {α β : Type} (r : Run α) (f : α → β) : r.map f = r.bind fun a => .ok (f a) := by cases r <;> rfl
theorem Run.ok_bind' {α β : Type} (a : α) (f : α → Run β) : (Run.ok a).bind f = f a := rfl
theorem Run.err_bind' {α β : Type} (f : α → Run β) : (Run.err : Run α).bind f = .err := rfl
theorem Run.ite_bind' {α β : Type} {c : Prop} [Decidable c] (x y : Run α) (f : α → Run β) :
    (if c then x else y).bind f = if c then x.bind f else y.bind f := by split <;> rfl

/-- another grammar for the same, where only successful runs count -/
theorem ReadsWith.to' {F : List Tk → Prop} {p : Rd α} {W : σ → List Tk → Prop} {m} {W' : τ → List Tk → Prop} {m'} (h : ReadsWith fl F p W m)
    (h1 : ∀ s ws st r, GoodToks fl ws → W s ws → m s st = .ok r → ∃ s', W' s' ws ∧ m' s' st = .ok r)
    (h2 : ∀ s' ws st r, GoodToks fl ws → W' s' ws → m' s' st = .ok r → ∃ s, W s ws ∧ m s st = .ok r) : ReadsWith fl F p W' m' := by
  refine ⟨h.shrinks, fun hg hr => ?_⟩
  rw [h.iff hg hr]
  constructor
  · rintro ⟨s, ws, rfl, hw, hm⟩
    obtain ⟨s', hw', he⟩ := h1 s ws _ _ hg.left hw hm
    exact ⟨s', ws, rfl, hw', he⟩
  · rintro ⟨s', ws, rfl, hw, hm⟩
    obtain ⟨s, hw', he⟩ := h2 s' ws _ _ hg.left hw hm
    exact ⟨s, ws, rfl, hw', he⟩

/-- a decision by the next token -/
theorem ReadsWith.peek' {F : List Tk → Prop} {c : Token → Prop} [DecidablePred c] {p q : Rd α} {W : σ → List Tk → Prop} {W' : τ → List Tk → Prop} {m m'}
    (h1 : ReadsWith fl F p W m) (h2 : ReadsWith fl F q W' m')
    (hW : ∀ s ws rest, GoodToks fl ws → W s ws → F rest → ∃ tk r, ws ++ rest = tk :: r ∧ c tk.1)
    (hW' : ∀ s ws rest, GoodToks fl ws → W' s ws → F rest → ∃ tk r, ws ++ rest = tk :: r ∧ ¬ c tk.1) :
    ReadsWith fl F (rPeek >>= fun tk => if c tk then p else q) (Either W W') (Sum.elim m m') := by
  have hd : ∀ tk r st, (rPeek >>= fun tk => if c tk then p else q : Rd α) (tk :: r) st = if c tk.1 then p (tk :: r) st else q (tk :: r) st := by
    intro tk r st
    simp only [Rd.bind_def, rPeek, Rd.tok, Run.map, Run.bind]
    split <;> rfl
  refine ⟨?_, fun {toks st rest st' a} hg hr => ?_⟩
  · intro toks st rest st' a h
    match toks, h with
    | tk :: r, h =>
      rw [hd] at h
      split at h
      · exact h1.shrinks _ _ _ _ _ h
      · exact h2.shrinks _ _ _ _ _ h
  · constructor
    · intro h
      match toks, h, hg with
      | tk :: r, h, hg =>
        rw [hd] at h
        split at h
        · obtain ⟨s, ws, he, hw, hm⟩ := (h1.iff hg hr).1 h
          exact ⟨.inl s, ws, he, hw, hm⟩
        · obtain ⟨s, ws, he, hw, hm⟩ := (h2.iff hg hr).1 h
          exact ⟨.inr s, ws, he, hw, hm⟩
    · rintro ⟨s | s, ws, rfl, hw, hm⟩
      · obtain ⟨tk, r, he, hc⟩ := hW s ws rest hg.left hw hr
        have := (h1.iff hg hr).2 ⟨s, ws, rfl, hw, hm⟩
        rw [he] at this ⊢
        rw [hd, if_pos hc]
        exact this
      · obtain ⟨tk, r, he, hc⟩ := hW' s ws rest hg.left hw hr
        have := (h2.iff hg hr).2 ⟨s, ws, rfl, hw, hm⟩
        rw [he] at this ⊢
        rw [hd, if_neg hc]
        exact this

/-- one selector -/
def dtSel (dt : Term) (p : Name × SExp) (st : State) : Run (State × Term × Term × List (Name × Term)) :=
  (parseType b n false true p.2 st).bind fun t =>
  let s := t.1.mkSymbol CONST p.1 (mkFunctionType [dt] t.2)
  let u := s.1.mkSymbol CONST (nm "update-" ++ p.1) (mkFunctionType [dt, t.2] dt)
  .ok (u.1, t.2, s.2, [(p.1, s.2), (nm "update-" ++ p.1, u.2)])

theorem dtSels_eq (dt : Term) : ∀ (r : List (Name × SExp)) (st : State), dtSels b n dt r st =
    (mAll (dtSel b n dt) r st).map fun q => (q.1, q.2.map (·.1), q.2.map (·.2.1), q.2.flatMap (·.2.2))
  | [], st => rfl
  | (x, e) :: r, st => by
    simp only [dtSels, mAll, dtSel, dtSels_eq dt r, Run.map_eq', Run.bind_bind', Run.ok_bind', List.map_cons, List.flatMap_cons, List.cons_append, List.nil_append]

theorem reads_sel (dt : Term) : ReadsWith fl Any (rSel b n o dt) (Before (Both (NameW (tokSem o)) (Written (tokSem o)))) (dtSel b n dt) := by
  refine ((reads_name (fl := fl) o).then (F := Any) fun x => (reads_type (fl := fl) b n o true).then (F := Any) fun t =>
    ReadsWith.new (g := fun st => st.mkSymbol CONST x (mkFunctionType [dt] t)) fun s =>
    ReadsWith.new (g := fun st => st.mkSymbol CONST (nm "update-" ++ x) (mkFunctionType [dt, t] dt)) fun u =>
    ReadsWith.eat (t := .RPAREN) (q := fun _ => pure (t, s, [(x, s), (nm "update-" ++ x, u)])) (ReadsWith.pure' (fl := fl) Any (t, s, [(x, s), (nm "update-" ++ x, u)]))).to ?_ ?_
  · rintro ⟨x, e, _⟩ ws _ h
    obtain ⟨w, w', rfl, h1, h2⟩ := both_iff.1 h
    obtain ⟨w2, w3, rfl, h4, u, w4, rfl, h3⟩ := both_iff.1 h2
    cases h3
    exact ⟨(x, e), ⟨u, w ++ w2, by simp, both_iff.2 ⟨w, w2, rfl, h1, h4⟩⟩, fun st => rfl⟩
  · rintro ⟨x, e⟩ ws _ ⟨u, w, rfl, h⟩
    obtain ⟨w, w', rfl, h1, h2⟩ := both_iff.1 h
    exact ⟨(x, e, ()), both_iff.2 ⟨w, w' ++ [(.RPAREN, u)], by simp, h1, both_iff.2 ⟨w', _, rfl, h2, u, [], rfl, rfl⟩⟩, fun st => rfl⟩

/-- one constructor -/
def dtCons (dt : Term) (ps : List Term) (c : SCons) (st : State) : Run (State × (Term × List Term × Bool) × List (Name × Term)) :=
  (dtSels b n dt c.sels st).bind fun p =>
  (dtConsType b n p.1 dt ps p.2.1 c.name).bind fun t =>
  let k := t.1.mkSymbol CONST c.name t.2.1
  let i := k.1.mkSymbol CONST (nm "is-" ++ c.name) (mkFunctionType [dt] tBool)
  .ok (i.1, (k.2, p.2.2.1, t.2.2), p.2.2.2 ++ [(c.name, k.2), (nm "is-" ++ c.name, i.2)])

theorem dtCtors_eq (dt : Term) (ps : List Term) : ∀ (cs : List SCons) (st : State), dtCtors b n dt ps cs st =
    (mAll (dtCons b n dt ps) cs st).map fun q => (q.1, q.2.map (·.1), q.2.flatMap (·.2))
  | [], st => rfl
  | c :: r, st => by
    simp only [dtCtors, mAll, dtCons, dtCtors_eq dt ps r, Run.map_eq', Run.bind_bind', Run.ok_bind', List.map_cons, List.flatMap_cons, List.append_assoc, List.cons_append, List.nil_append]

/-- a constructor after its left parenthesis -/
def ConsTail (c : SCons) (ws : List Tk) : Prop :=
  ∃ w w', ws = w ++ w' ∧ NameW (tokSem o) c.name w ∧ Closing (After1 .LPAREN (Before (Both (NameW (tokSem o)) (Written (tokSem o))))) c.sels w'

theorem consTail_iff {c : SCons} {ws : List Tk} : ConsDecl (tokSem o) c ws ↔ After1 .LPAREN (ConsTail o) c ws := by
  constructor
  · rintro ⟨x, sels, w, w', u, u', h1, h2⟩
    exact ⟨u, _, rfl, w, w' ++ [(.RPAREN, u')], by simp, h1, u', w', rfl, (many_congr (fun s ws => parens_before)).1 h2⟩
  · rintro ⟨u, _, rfl, w, _, rfl, h1, u', w', rfl, h2⟩
    have := ConsDecl.mk (G := tokSem o) c.name c.sels w w' u u' h1 ((many_congr (fun s ws => parens_before)).2 h2)
    simpa using this

theorem reads_cons (dt : Term) (ps : List Term) : ReadsWith fl Any (rCons b n o dt ps) (ConsTail o) (dtCons b n dt ps) := by
  refine ((reads_name (fl := fl) o).then (F := Any) fun x => (reads_sel (fl := fl) b n o dt).items.end fun sels =>
    ReadsWith.act (g := fun st => dtConsType b n st dt ps (sels.map (·.1)) x) fun t =>
    ReadsWith.new (g := fun st => st.mkSymbol CONST x t.1) fun k =>
    ReadsWith.new (g := fun st => st.mkSymbol CONST (nm "is-" ++ x) (mkFunctionType [dt] tBool)) fun i =>
    ReadsWith.pure' (fl := fl) Any ((k, sels.map (·.2.1), t.2), sels.flatMap (·.2.2) ++ [(x, k), (nm "is-" ++ x, i)])).to ?_ ?_
  · rintro ⟨x, sels⟩ ws _ h
    obtain ⟨w, w', rfl, h1, h2⟩ := both_iff.1 h
    refine ⟨⟨x, sels⟩, ⟨w, w', rfl, h1, h2⟩, fun st => ?_⟩
    simp only [dtCons, dtSels_eq, Run.map_eq', Run.bind_bind', Run.ok_bind']
  · rintro ⟨x, sels⟩ ws _ ⟨w, w', rfl, h1, h2⟩
    refine ⟨(x, sels), both_iff.2 ⟨w, w', rfl, h1, h2⟩, fun st => ?_⟩
    simp only [dtCons, dtSels_eq, Run.map_eq', Run.bind_bind', Run.ok_bind']

/-- a definition of a datatype after its left parenthesis -/
def DtTail (d : SDt) (ws : List Tk) : Prop := ∃ u, DtDef (tokSem o) d ((.LPAREN, u) :: ws)

theorem dtDef_iff {d : SDt} {ws : List Tk} : DtDef (tokSem o) d ws ↔ After1 .LPAREN (DtTail o) d ws := by
  constructor
  · intro h
    cases h with
    | plain cs _ h =>
      cases h with
      | mk u u' w h => exact ⟨u, _, rfl, u, .plain cs _ (.mk cs u u' w h)⟩
    | par xs cs w w' u u' p h1 h2 h3 => exact ⟨u, _, rfl, u, .par xs cs w w' u u' p h1 h2 h3⟩
  · rintro ⟨u, w, rfl, u1, h⟩
    generalize he : (Token.LPAREN, u1) :: w = ws at h
    cases h with
    | plain cs _ h =>
      cases h with
      | mk u2 u' w2 h =>
        simp only [List.cons_append, List.cons.injEq] at he
        rw [he.2]
        exact .plain cs _ (.mk cs u u' w2 h)
    | par xs cs w1 w' u2 u' p h1 h2 h3 =>
      simp only [List.cons_append, List.cons.injEq] at he
      rw [he.2]
      exact .par xs cs w1 w' u u' p h1 h2 h3

theorem dtTail_iff {d : SDt} {ws : List Tk} : DtTail o d ws ↔
    (∃ cs, d = ⟨[], cs⟩ ∧ Closing (After1 .LPAREN (ConsTail o)) cs ws) ∨
    (∃ xs cs w w' p u', d = ⟨xs, cs⟩ ∧ ws = (.PAR, p) :: (w ++ (w' ++ [(.RPAREN, u')])) ∧ xs ≠ [] ∧ Parens (Many (NameW (tokSem o))) xs w ∧
      After1 .LPAREN (Closing (After1 .LPAREN (ConsTail o))) cs w') := by
  have hc : ∀ cs w, Many (ConsDecl (tokSem o)) cs w ↔ Many (After1 .LPAREN (ConsTail o)) cs w := fun cs w => many_congr fun s ws => consTail_iff o
  constructor
  · rintro ⟨u, h⟩
    generalize he : (Token.LPAREN, u) :: ws = ws' at h
    cases h with
    | plain cs _ h =>
      cases h with
      | mk u2 u' w h =>
        simp only [List.cons_append, List.cons.injEq] at he
        exact .inl ⟨cs, rfl, u', w, he.2, (hc _ _).1 h⟩
    | par xs cs w w' u2 u' p h1 h2 h3 =>
      simp only [List.cons_append, List.cons.injEq, List.append_assoc] at he
      refine .inr ⟨xs, cs, w, w', p, u', rfl, he.2, h1, h2, ?_⟩
      obtain ⟨u3, w3, he, u4, w4, he', h⟩ := parens_iff.1 h3
      exact ⟨u3, w3, he, u4, w4, he', (hc _ _).1 h⟩
  · rintro (⟨cs, rfl, u', w, rfl, h⟩ | ⟨xs, cs, w, w', p, u', rfl, rfl, h1, h2, u3, w3, he, u4, w4, he', h⟩)
    · exact ⟨[], .plain cs _ (.mk cs [] u' w ((hc _ _).2 h))⟩
    · refine ⟨[], ?_⟩
      have := DtDef.par (G := tokSem o) xs cs w w' [] u' p h1 h2 (parens_iff.2 ⟨u3, w3, he, u4, w4, he', (hc _ _).2 h⟩)
      simpa using this

/-- without parameters -/
theorem dtBody_plain (x : Name) (pre : Option (Term × Nat)) (cs : List SCons) (st : State) : dtBody b n x pre ⟨[], cs⟩ st =
    (dtType x pre 0 st).bind fun q => (mAll (dtCons b n q.2 []) cs q.1).bind fun c => .ok (c.1.bindAll (c.2.flatMap (·.2)), q.2, c.2.map (·.1)) := by
  simp only [dtBody, List.isEmpty_nil, if_true, dtCtors_eq, Run.map_eq', Run.bind_bind', Run.ok_bind', List.length_nil, typeParams, List.foldl_nil]

/-- with parameters -/
theorem dtBody_par (x : Name) (pre : Option (Term × Nat)) (xs : List Name) (cs : List SCons) (hx : xs ≠ []) (st : State) : dtBody b n x pre ⟨xs, cs⟩ st =
    (dtType x pre xs.length (typeParams xs st.push).1).bind fun q =>
    (q.1.build b n APPLY (q.2 :: (typeParams xs st.push).2)).bind fun dt =>
    (mAll (dtCons b n dt (typeParams xs st.push).2) cs q.1).bind fun c =>
    c.1.pop.bind fun s => .ok (s.bindAll (c.2.flatMap (·.2)), q.2, c.2.map (·.1)) := by
  have he : xs.isEmpty = false := by cases xs <;> simp_all
  simp only [dtBody, he, Bool.false_eq_true, if_false, dtCtors_eq, Run.map_eq', Run.bind_bind', Run.ok_bind']

theorem reads_dt (x : Name) (pre : Option (Term × Nat)) : ReadsWith fl Any (rDt b n o x pre) (DtTail o) (dtBody b n x pre) := by
  have hpar := ReadsWith.eat (t := .PAR) (q := fun _ => _) (ReadsWith.upd (fl := fl) (g := fun st => .ok st.push) (f := fun _ => _)
    ((reads_nameList (fl := fl) o).then (F := Any) (f := fun names => _) fun names =>
      ReadsWith.get (g := fun _ => if names.isEmpty then .err else .ok ()) (f := fun _ => _) fun _ =>
      ReadsWith.new (g := fun st => typeParams names st) (f := fun ps => _) fun ps =>
      ReadsWith.act (g := fun st => dtType x pre names.length st) (f := fun t => _) fun t =>
      ReadsWith.get (g := fun st => st.build b n APPLY (t :: ps)) (f := fun dt => _) fun dt =>
      ReadsWith.eat (t := .LPAREN) (q := fun _ => _) ((reads_cons (fl := fl) b n o dt ps).items.close (f := fun cs => Rd.upd State.pop >>= fun _ =>
          Rd.upd (fun st => .ok (st.bindAll (cs.flatMap (·.2)))) >>= fun _ => pure (t, cs.map (·.1))) (fun cs =>
        ReadsWith.upd (g := State.pop) (f := fun _ => _) <|
        ReadsWith.upd (g := fun st => .ok (st.bindAll (cs.flatMap (·.2)))) (f := fun _ => pure (t, cs.map (·.1))) (ReadsWith.pure' (fl := fl) Any (t, cs.map (·.1)))) fun _ _ => trivial)))
  have hplain := ReadsWith.act (fl := fl) (F := Any) (g := fun st => dtType x pre 0 st) (f := fun t => _) fun t =>
      (reads_cons (fl := fl) b n o t []).items.end (f := fun cs => _) fun cs =>
        ReadsWith.upd (g := fun st => .ok (st.bindAll (cs.flatMap (·.2)))) (f := fun _ => pure (t, cs.map (·.1))) (ReadsWith.pure' (fl := fl) Any (t, cs.map (·.1)))
  refine (ReadsWith.peek' (c := fun tk => tk = .PAR) hpar hplain ?_ ?_).to' ?_ ?_
  · rintro s ws rest _ ⟨u, w, rfl, _⟩ _
    exact ⟨_, _, rfl, rfl⟩
  · rintro s ws rest _ ⟨u, w, rfl, h⟩ _
    cases h with
    | nil => exact ⟨_, _, rfl, by simp⟩
    | cons s w ss ws h _ =>
      obtain ⟨u, w, rfl, _⟩ := h
      exact ⟨_, _, rfl, by simp⟩
  · rintro (⟨xs, cs⟩ | cs) ws st r _ h hm
    · obtain ⟨p, w1, rfl, h⟩ := h
      obtain ⟨w, w', rfl, h1, h2⟩ := both_iff.1 h
      obtain ⟨u, w2, rfl, u', w3, rfl, h3⟩ := h2
      simp only [Sum.elim, Run.ok_bind'] at hm
      have hx : xs ≠ [] := by
        rintro rfl
        simp only [List.isEmpty_nil, if_true, Run.err_bind'] at hm
        cases hm
      have he : xs.isEmpty = false := by cases xs <;> simp_all
      refine ⟨⟨xs, cs⟩, (dtTail_iff o).2 (.inr ⟨xs, cs, w, (.LPAREN, u) :: w3, p, u', rfl, by simp, hx, h1, u, _, rfl, h3⟩), ?_⟩
      rw [dtBody_par b n x pre xs cs hx]
      simpa only [he, Bool.false_eq_true, if_false, Run.ok_bind', Run.bind_bind'] using hm
    · refine ⟨⟨[], cs⟩, (dtTail_iff o).2 (.inl ⟨cs, rfl, h⟩), ?_⟩
      rw [dtBody_plain]
      exact hm
  · rintro d ws st r _ h hm
    rcases (dtTail_iff o).1 h with ⟨cs, rfl, h4⟩ | ⟨xs, cs, w, w', p, u', rfl, rfl, h1, h2, u3, w3, rfl, h4⟩
    · rw [dtBody_plain] at hm
      exact ⟨.inr cs, h4, hm⟩
    · rw [dtBody_par b n x pre xs cs h1] at hm
      refine ⟨.inl (xs, cs), ⟨p, _, rfl, both_iff.2 ⟨w, _, rfl, h2, u3, _, rfl, u', w3, rfl, h4⟩⟩, ?_⟩
      have he : xs.isEmpty = false := by cases xs <;> simp_all
      simpa only [Sum.elim, he, Bool.false_eq_true, if_false, Run.ok_bind', Run.bind_bind'] using hm

end
end Ethos.Props
