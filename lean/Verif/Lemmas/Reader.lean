import Verif.Spec.Syntax
import Verif.Lemmas.Elab
/-
Reading expressions from tokens agrees with reading them from trees.
-/
namespace Ethos.Props
open Ethos Kind Ethos.Spec

/-- the meanings of tokens that the code computes -/
def codeSem (o : ReadOpts) : TokSem :=
  ⟨fun tk x => tokenStrToSymbol tk.1 tk.2 = .ok x, fun tk l => litOfToken o tk = .ok l,
   fun tk => (findAttr (tokenStr tk.2)).isSome = true⟩

/-! ### Skipped text -/

/-- the rest of `d` lists that are open -/
inductive Closes : Nat → List Tk → Prop
  | zero : Closes 0 []
  | succ (d s ws v) : Sexps ws → Closes d v → Closes (d + 1) (ws ++ (.RPAREN, s) :: v)

theorem skipSexp_closes : ∀ (toks : List Tk) (d : Nat) {rest : List Tk}, skipSexp ((d : Int) + 1) toks = .ok rest →
    ∃ v, toks = v ++ rest ∧ Closes (d + 1) v
  | [], d, rest, h => by simp [skipSexp] at h
  | (k, s) :: r, d, rest, h => by
    simp only [skipSexp] at h
    by_cases hl : k = .LPAREN
    · subst hl
      simp only [if_true] at h
      rw [if_neg (by omega)] at h
      have : (d : Int) + 1 + 1 = ((d + 1 : Nat) : Int) + 1 := by omega
      rw [this] at h
      obtain ⟨v, rfl, hc⟩ := skipSexp_closes r (d + 1) h
      cases hc with
      | succ _ s1 ws1 v1 h1 h2 =>
        cases h2 with
        | succ _ s2 ws2 v2 h3 h4 =>
          refine ⟨((.LPAREN, s) :: ws1 ++ [(.RPAREN, s1)]) ++ ws2 ++ (.RPAREN, s2) :: v2, by simp, .succ _ _ _ _ (.cons _ _ (.list _ _ _ h1) h3) h4⟩
    · by_cases hr : k = .RPAREN
      · subst hr
        simp only [reduceCtorEq, if_false, if_true] at h
        cases d with
        | zero =>
          rw [if_pos (by omega)] at h
          cases h
          exact ⟨[(.RPAREN, s)], rfl, .succ 0 s [] [] .nil .zero⟩
        | succ d =>
          rw [if_neg (by omega)] at h
          have : ((d + 1 : Nat) : Int) + 1 - 1 = (d : Int) + 1 := by omega
          rw [this] at h
          obtain ⟨v, rfl, hc⟩ := skipSexp_closes r d h
          exact ⟨(.RPAREN, s) :: v, rfl, .succ _ s [] v .nil hc⟩
      · simp only [hl, hr, if_false] at h
        rw [if_neg (by omega)] at h
        obtain ⟨v, rfl, hc⟩ := skipSexp_closes r d h
        cases hc with
        | succ _ s1 ws1 v1 h1 h2 => exact ⟨(k, s) :: ws1 ++ (.RPAREN, s1) :: v1, rfl, .succ _ _ (_ :: ws1) _ (.cons [(k, s)] ws1 (.atom _ hl hr) h1) h2⟩

theorem skipSexp_sound {tk : Tk} {r rest : List Tk} (hr : tk.1 ≠ .RPAREN) (h : skipSexp 0 (tk :: r) = .ok rest) :
    ∃ v, tk :: r = v ++ rest ∧ Sexp v := by
  obtain ⟨k, s⟩ := tk
  simp only [skipSexp] at h
  by_cases hl : k = .LPAREN
  · subst hl
    simp only [if_true] at h
    rw [if_neg (by decide)] at h
    obtain ⟨v, rfl, hc⟩ := skipSexp_closes r 0 h
    cases hc with
    | succ _ s1 ws1 v1 h1 h2 =>
      cases h2
      exact ⟨(.LPAREN, s) :: ws1 ++ [(.RPAREN, s1)], by simp, .list _ _ _ h1⟩
  · simp only at hr
    simp only [hl, hr, if_false, if_true, Run.ok.injEq] at h
    subst h
    exact ⟨[(k, s)], rfl, .atom _ hl hr⟩

mutual
theorem skipSexp_sexp : ∀ {v : List Tk}, Sexp v → ∀ (d : Nat) (r : List Tk), skipSexp ((d : Int) + 1) (v ++ r) = skipSexp ((d : Int) + 1) r
  | _, .atom tk hl hr, d, r => by
    simp only [List.singleton_append, skipSexp, hl, hr, if_false]
    rw [if_neg (by omega)]
  | _, .list s s' ws h, d, r => by
    simp only [List.cons_append, List.append_assoc, skipSexp, if_true]
    rw [if_neg (by omega)]
    have : (d : Int) + 1 + 1 = ((d + 1 : Nat) : Int) + 1 := by omega
    rw [this, skipSexp_sexps h (d + 1)]
    simp only [skipSexp, List.nil_append, reduceCtorEq, if_false, if_true]
    rw [if_neg (by omega)]
    congr 1
    omega
theorem skipSexp_sexps : ∀ {v : List Tk}, Sexps v → ∀ (d : Nat) (r : List Tk), skipSexp ((d : Int) + 1) (v ++ r) = skipSexp ((d : Int) + 1) r
  | _, .nil, d, r => rfl
  | _, .cons v ws h h', d, r => by rw [List.append_assoc, skipSexp_sexp h, skipSexp_sexps h']
end

theorem skipSexp_complete {v : List Tk} (h : Sexp v) (r : List Tk) : skipSexp 0 (v ++ r) = .ok r := by
  cases h with
  | atom tk hl hr => simp [skipSexp, hl, hr]
  | list s s' ws h =>
    simp only [List.cons_append, List.append_assoc, skipSexp, if_true]
    rw [if_neg (by decide)]
    have := skipSexp_sexps h 0 ((.RPAREN, s') :: r)
    simp only [List.nil_append, Int.zero_add, Int.natCast_zero] at this ⊢
    rw [this]
    simp [skipSexp]

theorem _root_.Ethos.Spec.Sexp.cons {v : List Tk} (h : Sexp v) : ∃ tk r, v = tk :: r ∧ tk.1 ≠ .RPAREN := by
  cases h with
  | atom tk hl hr => exact ⟨tk, [], rfl, hr⟩
  | list s s' ws h => exact ⟨_, _, rfl, by simp⟩

theorem skipValue_sound {toks rest : List Tk} (h : skipValue toks = .ok rest) :
    (toks = rest ∧ ∃ tk r, toks = tk :: r ∧ (tk.1 = .KEYWORD ∨ tk.1 = .RPAREN)) ∨
    ∃ v, toks = v ++ rest ∧ Sexp v ∧ ∀ s, v.head? ≠ some (.KEYWORD, s) := by
  cases toks with
  | nil => cases h
  | cons tk r =>
    simp only [skipValue] at h
    split at h
    · next hk => cases h; exact .inl ⟨rfl, tk, r, rfl, hk⟩
    · next hk =>
      obtain ⟨v, h1, h2⟩ := skipSexp_sound (fun h => hk (.inr h)) h
      refine .inr ⟨v, h1, h2, fun s hs => ?_⟩
      obtain ⟨t2, r2, rfl, _⟩ := h2.cons
      cases hs
      cases h1
      exact hk (.inl rfl)

theorem skipAttrs_sound (o : ReadOpts) : ∀ (f : Nat) {toks rest : List Tk}, skipAttrs f toks = .ok rest →
    ∃ a s r, toks = a ++ rest ∧ rest = (.RPAREN, s) :: r ∧ Ignored (codeSem o) a
  | 0, _, _, h => by cases h
  | f + 1, [], _, h => by cases h
  | f + 1, (k, s) :: r, rest, h => by
    simp only [skipAttrs] at h
    split at h
    · next hk => cases hk; cases h; exact ⟨[], s, r, rfl, rfl, .nil⟩
    · split at h
      · next hk =>
        cases hk
        simp only [Run.ite_err, Run.bind_ok] at h
        obtain ⟨hu, r1, h1, h2⟩ := h
        obtain ⟨a, s', r', rfl, h4, h5⟩ := skipAttrs_sound o f h2
        rcases skipValue_sound h1 with ⟨rfl, _⟩ | ⟨v, rfl, h6, h7⟩
        · exact ⟨_ :: a, s', r', rfl, h4, .bare _ _ hu h5⟩
        · exact ⟨(.KEYWORD, s) :: v ++ a, s', r', by simp, h4, .valued _ _ _ hu h6 h7 h5⟩
      · cases h

theorem _root_.Ethos.Spec.Ignored.head {G : TokSem} {a : List Tk} (h : Ignored G a) (s : List Nat) (r : List Tk) :
    ∃ tk r', a ++ (.RPAREN, s) :: r = tk :: r' ∧ (tk.1 = .KEYWORD ∨ tk.1 = .RPAREN) := by
  cases h <;> exact ⟨_, _, rfl, by simp⟩

theorem skipAttrs_complete {o : ReadOpts} {a : List Tk} (h : Ignored (codeSem o) a) (s : List Nat) (r : List Tk) :
    ∀ f, a.length < f → skipAttrs f (a ++ (.RPAREN, s) :: r) = .ok ((.RPAREN, s) :: r) := by
  induction h with
  | nil =>
    intro f hf
    cases f with
    | zero => cases hf
    | succ f => simp [skipAttrs]
  | bare k ws hu h ih =>
    intro f hf
    cases f with
    | zero => cases hf
    | succ f =>
      simp only [List.cons_append, skipAttrs, reduceCtorEq, if_false, if_true]
      rw [if_neg (show ¬ (findAttr (tokenStr k)).isSome = true from hu)]
      obtain ⟨tk, r', e, hk⟩ := h.head s r
      have : skipValue (ws ++ (.RPAREN, s) :: r) = .ok (ws ++ (.RPAREN, s) :: r) := by
        rw [e]; simp only [skipValue]; rw [if_pos hk]
      rw [bind_ok_eq this]
      exact ih f (by simpa using hf)
  | valued k v ws hu hv hh h ih =>
    intro f hf
    cases f with
    | zero => cases hf
    | succ f =>
      simp only [List.cons_append, List.append_assoc, skipAttrs, reduceCtorEq, if_false, if_true]
      rw [if_neg (show ¬ (findAttr (tokenStr k)).isSome = true from hu)]
      have : skipValue (v ++ (ws ++ (.RPAREN, s) :: r)) = .ok (ws ++ (.RPAREN, s) :: r) := by
        obtain ⟨t2, r2, rfl, hr⟩ := hv.cons
        simp only [List.cons_append, skipValue]
        rw [if_neg, ← List.cons_append, skipSexp_complete hv]
        rintro (hk | hk)
        · obtain ⟨k2, s2⟩ := t2; cases hk; exact hh s2 rfl
        · exact hr hk
      rw [bind_ok_eq this]
      exact ih f (by simp at hf; omega)

/-! ### Bounds -/

/-- `a` is `b` unless its bound was too small -/
def RunLe {α : Type} (a b : Run α) : Prop := a = .fuel ∨ a = b

namespace RunLe
variable {α β : Type}
theorem refl (a : Run α) : RunLe a a := .inr rfl
theorem bind {a b : Run α} {f g : α → Run β} (h : RunLe a b) (h' : ∀ x, RunLe (f x) (g x)) : RunLe (a.bind f) (b.bind g) := by
  rcases h with rfl | rfl
  · exact .inl rfl
  · cases a with
    | ok x => exact h' x
    | _ => exact .inr rfl
theorem map {a b : Run α} {f : α → β} (h : RunLe a b) : RunLe (a.map f) (b.map f) := by
  rcases h with rfl | rfl
  · exact .inl rfl
  · exact .inr rfl
theorem ite {p : Prop} [Decidable p] {a b c d : Run α} (h : RunLe a b) (h' : RunLe c d) :
    RunLe (if p then a else c) (if p then b else d) := by
  split
  · exact h
  · exact h'
theorem ok {a b : Run α} {x : α} (h : RunLe a b) (e : a = .ok x) : b = .ok x := by
  rcases h with rfl | rfl
  · cases e
  · exact e
end RunLe

theorem skipAttrs_below : ∀ (f : Nat) (toks : List Tk), RunLe (skipAttrs f toks) (skipAttrs (f + 1) toks)
  | 0, _ => .inl rfl
  | _ + 1, [] => .inr rfl
  | f + 1, tk :: r => by
    rw [skipAttrs, skipAttrs]
    exact .ite (.refl _) (.ite (.ite (.refl _) (.bind (.refl _) fun _ => skipAttrs_below f _)) (.refl _))

section
variable (b : Env) (n : Nat) (o : ReadOpts)

/-- a larger bound gives the same outcome -/
structure MonoAt (f : Nat) : Prop where
  loop : ∀ S toks st, RunLe (rloop b n o f S toks st) (rloop b n o (f + 1) S toks st)
  head : ∀ S x toks st, RunLe (rhead b n o f S x toks st) (rhead b n o (f + 1) S x toks st)
  ret : ∀ S toks st t, RunLe (rret b n o f S toks st t) (rret b n o (f + 1) S toks st t)
  «let» : ∀ S bs toks st, RunLe (rlet b n o f S bs toks st) (rlet b n o (f + 1) S bs toks st)
  vars : ∀ toks st, RunLe (rvars b n o f toks st) (rvars b n o (f + 1) toks st)
  lets : ∀ toks st, RunLe (rlets b n o f toks st) (rlets b n o (f + 1) toks st)

theorem monoAt : ∀ f, MonoAt b n o f
  | 0 => ⟨fun _ _ _ => .inl rfl, fun _ _ _ _ => .inl rfl, fun _ _ _ _ => .inl rfl, fun _ _ _ _ => .inl rfl,
      fun _ _ => .inl rfl, fun _ _ => .inl rfl⟩
  | f + 1 => by
    have ih := monoAt f
    refine ⟨fun S toks st => ?_, fun S x toks st => ?_, fun S toks st t => ?_, fun S bs toks st => ?_, fun toks st => ?_, fun toks st => ?_⟩
    · cases toks with
      | nil => exact .inr rfl
      | cons tk r =>
        obtain ⟨k, s⟩ := tk
        cases k <;> simp only [rloop] <;> try exact .bind (.refl _) fun _ => ih.ret _ _ _ _
        · cases r with
          | nil => exact .inr rfl
          | cons tk r =>
            obtain ⟨k, s⟩ := tk
            cases k <;> simp only <;> try exact .refl _
            · exact ih.loop _ _ _
            · exact .bind (.refl _) fun _ => ih.let _ _ _ _
            · exact .bind (.refl _) fun _ => ih.let _ _ _ _
            · exact .bind (.refl _) fun _ => .ite (ih.head _ _ _ _) (.refl _)
            · exact .bind (.refl _) fun _ => ih.head _ _ _ _
            · exact .bind (.refl _) fun _ => ih.head _ _ _ _
        · cases S with
          | nil => exact .inr rfl
          | cons fr S =>
            cases fr <;> simp only <;> try exact .refl _
            exact .bind (.refl _) fun _ => .bind (.refl _) fun _ => ih.ret _ _ _ _
    · simp only [rhead]
      cases st.scope.get x with
      | none => exact .refl _
      | some v =>
        simp only
        refine .ite (.bind (ih.vars _ _) fun _ => .ite (.refl _) (.bind (.refl _) fun _ => ih.loop _ _ _)) (.ite ?_ (ih.loop _ _ _))
        exact .bind (ih.lets _ _) fun _ => .ite (.refl _) (.bind (.refl _) fun _ => ih.loop _ _ _)
    · cases S with
      | nil => exact .inr rfl
      | cons fr S =>
        cases fr <;> simp only [rret]
        · exact ih.loop _ _ _
        · exact .bind (.refl _) fun _ => ih.let _ _ _ _
        · exact .bind (.refl _) fun _ => .bind (.refl _) fun _ => ih.ret _ _ _ _
        · exact .bind (skipAttrs_below _ _) fun _ => .bind (.refl _) fun _ => ih.ret _ _ _ _
    · cases toks with
      | nil => exact .inr rfl
      | cons tk r =>
        rw [rlet, rlet]
        exact .ite (.bind (.refl _) fun _ => ih.loop _ _ _) (.ite (ih.loop _ _ _) (.refl _))
    · cases toks with
      | nil => exact .inr rfl
      | cons tk r =>
        rw [rvars, rvars]
        exact .ite (.bind (.refl _) fun _ => .bind (ih.loop _ _ _) fun _ => .bind (.refl _) fun _ => .bind (.refl _) fun _ =>
          .bind (.refl _) fun _ => .map (ih.vars _ _)) (.ite (.refl _) (.refl _))
    · cases toks with
      | nil => exact .inr rfl
      | cons tk r =>
        rw [rlets, rlets]
        exact .ite (.bind (.refl _) fun _ => .bind (ih.loop _ _ _) fun _ => .bind (.refl _) fun _ => .bind (.refl _) fun _ =>
          .bind (.refl _) fun _ => .map (ih.lets _ _)) (.ite (.refl _) (.refl _))

variable {b n o}

theorem rloop_mono {f g : Nat} {S toks st} {R} (h : f ≤ g) (e : rloop b n o f S toks st = .ok R) : rloop b n o g S toks st = .ok R := by
  induction h with
  | refl => exact e
  | step _ ih => exact ((monoAt b n o _).loop _ _ _).ok ih
theorem rret_mono {f g : Nat} {S toks st t} {R} (h : f ≤ g) (e : rret b n o f S toks st t = .ok R) : rret b n o g S toks st t = .ok R := by
  induction h with
  | refl => exact e
  | step _ ih => exact ((monoAt b n o _).ret _ _ _ _).ok ih
theorem rlet_mono {f g : Nat} {S bs toks st} {R} (h : f ≤ g) (e : rlet b n o f S bs toks st = .ok R) : rlet b n o g S bs toks st = .ok R := by
  induction h with
  | refl => exact e
  | step _ ih => exact ((monoAt b n o _).let _ _ _ _).ok ih
theorem rvars_mono {f g : Nat} {toks st} {R} (h : f ≤ g) (e : rvars b n o f toks st = .ok R) : rvars b n o g toks st = .ok R := by
  induction h with
  | refl => exact e
  | step _ ih => exact ((monoAt b n o _).vars _ _).ok ih
theorem rlets_mono {f g : Nat} {toks st} {R} (h : f ≤ g) (e : rlets b n o f toks st = .ok R) : rlets b n o g toks st = .ok R := by
  induction h with
  | refl => exact e
  | step _ ih => exact ((monoAt b n o _).lets _ _).ok ih
end

/-! ### What is read is written -/

section
variable (b : Env) (n : Nat) (o : ReadOpts)

theorem eat_ok {t : Token} {toks r : List Tk} : eat t toks = .ok r ↔ ∃ s, toks = (t, s) :: r := by
  cases toks with
  | nil => simp [eat]
  | cons tk r' =>
    obtain ⟨k, s⟩ := tk
    simp only [eat, Run.ite_err', Run.ok.injEq]
    constructor
    · rintro ⟨rfl, rfl⟩; exact ⟨s, rfl⟩
    · rintro ⟨s', h⟩; cases h; exact ⟨rfl, rfl⟩

theorem readName_ok {toks r : List Tk} {x : Name} : readName toks = .ok (r, x) ↔ ∃ tk, toks = tk :: r ∧ (codeSem o).name tk x := by
  cases toks with
  | nil => simp [readName]
  | cons tk r' =>
    simp only [readName, Run.map_ok, Prod.mk.injEq]
    constructor
    · rintro ⟨y, h, rfl, rfl⟩; exact ⟨tk, rfl, h⟩
    · rintro ⟨tk', h, h'⟩; cases h; exact ⟨x, h', rfl, rfl⟩

/-- an expression is read and handed to the stack -/
def Delivers (f : Nat) (S : List PFrame) (toks : List Tk) (st : State) (R : List Tk × State × Term) : Prop :=
  ∃ e ws rest st' t f', f' < f ∧ toks = ws ++ rest ∧ Written (codeSem o) e ws ∧ parseExpr b n e st = .ok (st', t) ∧
    rret b n o f' S rest st' t = .ok R

/-- what the functions of the reader read, if they succeed with the bound `f` -/
structure SoundAt (f : Nat) : Prop where
  loop : ∀ S toks st R, rloop b n o f S toks st = .ok R → Delivers b n o f S toks st R ∨
    ∃ k args S' s rest t st' f', f' < f ∧ S = .nextArg k args :: S' ∧ toks = (.RPAREN, s) :: rest ∧
      st.build b n APPLY args = .ok t ∧ popN k st = .ok st' ∧ rret b n o f' S' rest st' t = .ok R
  args : ∀ k args S toks st R, rloop b n o f (.nextArg k args :: S) toks st = .ok R →
    ∃ es ws s rest st1 ts t st' f', f' < f ∧ toks = ws ++ (.RPAREN, s) :: rest ∧ WrittenAll (codeSem o) es ws ∧
      parseList b n es st = .ok (st1, ts) ∧ st1.build b n APPLY (args ++ ts) = .ok t ∧ popN k st1 = .ok st' ∧
      rret b n o f' S rest st' t = .ok R
  head : ∀ S x toks st R, rhead b n o f S x toks st = .ok R →
    ∃ e ws rest st' t f', f' < f ∧ toks = ws ++ rest ∧
      (∀ s tk, (codeSem o).name tk x → Written (codeSem o) e ((.LPAREN, s) :: tk :: ws)) ∧
      (x = nm "_" ∨ x = nm "as" → e.indexed = true) ∧
      parseExpr b n e st = .ok (st', t) ∧ rret b n o f' S rest st' t = .ok R
  vars : ∀ toks st rest st' vs, rvars b n o f toks st = .ok (rest, st', vs) →
    ∃ xs es w s, toks = w ++ (.RPAREN, s) :: rest ∧ WrittenBinds (codeSem o) xs es w ∧
      parseVars b n xs es st = .ok (st', vs) ∧ xs.length = vs.length
  lets : ∀ toks st rest st' vs, rlets b n o f toks st = .ok (rest, st', vs) →
    ∃ xs es w s, toks = w ++ (.RPAREN, s) :: rest ∧ WrittenBinds (codeSem o) xs es w ∧
      parseLets b n xs es st = .ok (st', vs) ∧ xs.length = vs.length
  «let» : ∀ S bs toks st R, rlet b n o f S bs toks st = .ok R →
    ∃ xs es w s body wb s' rest st1 ts st2 t st' f', f' < f ∧ toks = w ++ (.RPAREN, s) :: wb ++ (.RPAREN, s') :: rest ∧
      WrittenBinds (codeSem o) xs es w ∧ Written (codeSem o) body wb ∧ parseList b n es st = .ok (st1, ts) ∧
      parseExpr b n body (st1.push.bindAll (bs ++ xs.zip ts)) = .ok (st2, t) ∧ st2.pop = .ok st' ∧
      rret b n o f' S rest st' t = .ok R

variable {b n o}

theorem Delivers.le {f g : Nat} {S toks st R} (h : Delivers b n o f S toks st R) (hl : f ≤ g) : Delivers b n o g S toks st R := by
  obtain ⟨e, ws, rest, st', t, f', h1, h2⟩ := h
  exact ⟨e, ws, rest, st', t, f', by omega, h2⟩

/-- with an empty stack an expression is read -/
theorem SoundAt.expr {f : Nat} (H : SoundAt b n o f) {toks st rest st' t} (h : rloop b n o f [] toks st = .ok (rest, st', t)) :
    ∃ e ws, toks = ws ++ rest ∧ Written (codeSem o) e ws ∧ parseExpr b n e st = .ok (st', t) := by
  rcases H.loop _ _ _ _ h with ⟨e, ws, r, s1, t1, f', _, h1, h2, h3, h4⟩ | ⟨k, args, S', _, _, _, _, _, _, h1, _⟩
  · cases f' with
    | zero => cases h4
    | succ f' => cases h4; exact ⟨e, ws, h1, h2, h3⟩
  · cases h1

theorem leafTerm_sound {tk : Tk} {st : State} {t : Term} (h1 : tk.1 ≠ .LPAREN) (h : leafTerm o tk st = .ok t) :
    ∃ e, Written (codeSem o) e [tk] ∧ parseExpr b n e st = .ok (st, t) := by
  obtain ⟨k, s⟩ := tk
  have sy : ∀ k', (∀ y, tokenStrToSymbol k' s = .ok y → (codeSem o).name (k', s) y) →
      ((tokenStrToSymbol k' s).bind fun x =>
        match st.scope.get x with
        | none => Run.err
        | some t => if t.kind = BUILTIN_CONST then .err else .ok t) = .ok t →
      ∃ e, Written (codeSem o) e [(k', s)] ∧ parseExpr b n e st = .ok (st, t) := by
    intro k' hk h
    simp only [Run.bind_ok] at h
    obtain ⟨x, hx, h⟩ := h
    split at h
    · cases h
    · next u hu =>
      simp only [Run.ite_err] at h
      obtain ⟨hb, h⟩ := h
      cases h
      exact ⟨.sym x, .sym _ _ (hk _ hx), by simp only [parseExpr, hu]; rw [if_neg hb]⟩
  have li : ∀ k', (litOfToken o (k', s)).map Term.lit = .ok t →
      ∃ e, Written (codeSem o) e [(k', s)] ∧ parseExpr b n e st = .ok (st, t) := by
    intro k' h
    simp only [Run.map_ok] at h
    obtain ⟨l, hl, rfl⟩ := h
    exact ⟨.lit l, .lit _ _ hl, by simp only [parseExpr]⟩
  cases k with
  | SYMBOL => exact sy _ (fun _ h => h) h
  | QUOTED_SYMBOL => exact sy _ (fun _ h => h) h
  | TYPE => simp only [leafTerm] at h; cases h; exact ⟨.type, .type _, by simp only [parseExpr]⟩
  | BOOL_TYPE => simp only [leafTerm] at h; cases h; exact ⟨.bool, .bool _, by simp only [parseExpr]⟩
  | _ => exact li _ h

theorem twoOpen_iff {toks : List Tk} : twoOpen toks = true ↔ ∃ s s' r, toks = (.LPAREN, s) :: (.LPAREN, s') :: r := by
  match toks with
  | [] => simp [twoOpen]
  | [_] => simp [twoOpen]
  | (k1, s1) :: (k2, s2) :: r => simp [twoOpen, and_comm]

/-- only a qualified application is written with two parentheses at the beginning -/
theorem _root_.Ethos.Spec.Written.twoOpen {e : SExp} {ws : List Tk} (h : Written (codeSem o) e ws) (r : List Tk) :
    twoOpen (ws ++ r) = true ↔ ∃ q as, e = .appq q as := by
  have nk : ∀ {tk x}, (codeSem o).name tk x → tk.1 ≠ .LPAREN := by
    intro tk x h hk
    simp only [codeSem, hk, tokenStrToSymbol] at h
    cases h
  cases h with
  | sym tk x h =>
    have := nk h
    cases r <;> simp [Ethos.twoOpen, this]
  | lit tk l h =>
    have : tk.1 ≠ .LPAREN := by
      intro hk
      simp only [codeSem, litOfToken, hk] at h
      cases h
    cases r <;> simp [Ethos.twoOpen, this]
  | type s => cases r <;> simp [Ethos.twoOpen]
  | bool s => cases r <;> simp [Ethos.twoOpen]
  | app s s' tk x es ws h _ => simp [Ethos.twoOpen, nk h]
  | binder s s' u u' tk x xs es w args ws h => simp [Ethos.twoOpen, nk h]
  | letE s s' u u' tk xs es w body wb h =>
    have : tk.1 ≠ .LPAREN := by rcases h with h | h <;> simp [h]
    simp [Ethos.twoOpen, this]
  | annot => simp [Ethos.twoOpen]
  | appq s s' q w es ws hi hw _ =>
    simp only [List.cons_append, SExp.appq.injEq, exists_eq', exists_eq_left', iff_true]
    cases hw <;> simp_all [Ethos.twoOpen, SExp.isIndexed]

theorem _root_.Ethos.Spec.WrittenAll.twoOpen {es : List SExp} {ws : List Tk} (h : WrittenAll (codeSem o) es ws) (s : List Nat) (r : List Tk) :
    twoOpen (ws ++ (.RPAREN, s) :: r) = true ↔ ∃ q as es', es = .appq q as :: es' := by
  cases h with
  | nil => cases r <;> simp [Ethos.twoOpen]
  | cons e w es ws h h' =>
    rw [List.append_assoc, h.twoOpen]
    simp

theorem binderArgs_of {ck : Attr} {es : List SExp} (h : (ck = .BINDER ∨ ck = .LET_BINDER) → ¬ ∃ q as es', es = .appq q as :: es') :
    binderArgs ck es = true := by
  cases es with
  | nil => rfl
  | cons e es =>
    cases e <;> simp only [binderArgs]
    simp only [decide_eq_true_eq]
    constructor
    · intro hc; exact h (.inl hc) ⟨_, _, _, rfl⟩
    · intro hc; exact h (.inr hc) ⟨_, _, _, rfl⟩

theorem soundAt : ∀ f, SoundAt b n o f := by
  intro f
  induction f using Nat.strongRecOn with
  | _ f IH =>
  cases f with
  | zero =>
    exact ⟨fun _ _ _ _ h => by simp [rloop] at h, fun _ _ _ _ _ _ h => by simp [rloop] at h, fun _ _ _ _ _ h => by simp [rhead] at h,
      fun _ _ _ _ _ h => by simp [rvars] at h, fun _ _ _ _ _ h => by simp [rlets] at h, fun _ _ _ _ _ h => by simp [rlet] at h⟩
  | succ f =>
    have ih := IH f (by omega)
    have loop : ∀ S toks st R, rloop b n o (f + 1) S toks st = .ok R → Delivers b n o (f + 1) S toks st R ∨
        ∃ k args S' s rest t st' f', f' < f + 1 ∧ S = .nextArg k args :: S' ∧ toks = (.RPAREN, s) :: rest ∧
          st.build b n APPLY args = .ok t ∧ popN k st = .ok st' ∧ rret b n o f' S' rest st' t = .ok R := by
      intro S toks st R h
      cases toks with
      | nil => simp [rloop] at h
      | cons tk r =>
        obtain ⟨k, s⟩ := tk
        have leaf : k ≠ .LPAREN → ((leafTerm o (k, s) st).bind fun t => rret b n o f S r st t) = .ok R →
            Delivers b n o (f + 1) S ((k, s) :: r) st R := by
          intro hk h
          simp only [Run.bind_ok] at h
          obtain ⟨t, h1, h2⟩ := h
          obtain ⟨e, h3, h4⟩ := leafTerm_sound hk h1
          exact ⟨e, [(k, s)], r, st, t, f, by omega, rfl, h3, h4, h2⟩
        by_cases hl : k = .LPAREN
        · subst hl
          left
          simp only [rloop] at h
          cases r with
          | nil => cases h
          | cons tk r =>
            obtain ⟨k, u⟩ := tk
            have letC : (k = .LET ∨ k = .EVAL_DEFINE) → ((eat .LPAREN r).bind fun r => rlet b n o f S [] r st) = .ok R →
                Delivers b n o (f + 1) S ((.LPAREN, s) :: (k, u) :: r) st R := by
              intro hk h
              simp only [Run.bind_ok, eat_ok] at h
              obtain ⟨r1, ⟨u1, rfl⟩, h1⟩ := h
              obtain ⟨xs, es, w, s1, body, wb, s2, rest, st1, ts, st2, t, st', f', hf, rfl, h2, h3, h4, h5, h6, h7⟩ := ih.let _ _ _ _ _ h1
              refine ⟨.letE xs es body, _, rest, st', t, f', by omega, ?_, .letE s s2 u1 s1 (k, u) xs es w body wb hk h2 h3, ?_, h7⟩
              · simp
              · simp only [List.nil_append] at h5
                simp only [parseExpr]
                rw [bind_ok_eq h4]
                simp only
                rw [bind_ok_eq h5, map_ok_eq h6]
            have symC : (codeSem o).name = (fun tk x => tokenStrToSymbol tk.1 tk.2 = .ok x) →
                ((tokenStrToSymbol k u).bind fun x => rhead b n o f S x r st) = .ok R →
                Delivers b n o (f + 1) S ((.LPAREN, s) :: (k, u) :: r) st R := by
              intro _ h
              simp only [Run.bind_ok] at h
              obtain ⟨x, hx, h⟩ := h
              obtain ⟨e, ws, rest, st', t, f', hf, rfl, h2, h3, h4, h5⟩ := ih.head _ _ _ _ _ h
              exact ⟨e, _, rest, st', t, f', by omega, rfl, h2 s (k, u) hx, h4, h5⟩
            cases k <;> simp only at h <;> try cases h
            · -- attribute
              rcases ih.loop _ _ _ _ h with ⟨e, ws, rest, st', t, f', h1, rfl, h3, h4, h5⟩ | ⟨k, args, S', _, _, _, _, _, _, h1, _⟩
              · cases f' with
                | zero => cases h5
                | succ f' =>
                  simp only [rret, Run.bind_ok, eat_ok] at h5
                  obtain ⟨r1, h6, r2, ⟨s1, rfl⟩, h7⟩ := h5
                  obtain ⟨a, s2, r3, rfl, h8, h9⟩ := skipAttrs_sound o _ h6
                  cases h8
                  refine ⟨.annot e, _, r2, st', t, f', by omega, ?_, .annot s s1 u e ws a h3 h9, by simpa only [parseExpr] using h4, h7⟩
                  simp
              · cases h1
            · exact letC (.inr rfl) h
            · exact letC (.inl rfl) h
            · -- a qualified application
              simp only [Run.bind_ok, Run.ite_err'] at h
              obtain ⟨⟨r1, x⟩, h1, hx, h2⟩ := h
              obtain ⟨tk, rfl, hn⟩ := (readName_ok o).1 h1
              obtain ⟨e, ws, rest, st', t, f', hf, rfl, h4, h5, h6, h7⟩ := ih.head _ _ _ _ _ h2
              cases f' with
              | zero => cases h7
              | succ f' =>
                simp only [rret, List.nil_append] at h7
                obtain ⟨es, ws2, s2, rest2, st1, ts, t2, st2, f2, h8, rfl, h9, h10, h11, h12, h13⟩ := (IH f' (by omega)).args _ _ _ _ _ _ h7
                cases h12
                refine ⟨.appq e es, _, rest2, st1, t2, f2, by omega, ?_, .appq s s2 e _ es ws2 (indexed_iff.1 (h5 hx)) (h4 u tk hn) h9, ?_, h13⟩
                · simp
                · simp only [parseExpr]
                  rw [if_pos (h5 hx), bind_ok_eq h6]
                  simp only
                  rw [bind_ok_eq h10]
                  exact map_ok_eq h11
            · exact symC rfl h
            · exact symC rfl h
        · by_cases hr : k = .RPAREN
          · subst hr
            right
            simp only [rloop] at h
            cases S with
            | nil => cases h
            | cons fr S =>
              cases fr <;> simp only at h <;> try cases h
              simp only [Run.bind_ok] at h
              obtain ⟨t, h1, st', h2, h3⟩ := h
              exact ⟨_, _, S, s, r, t, st', f, by omega, rfl, rfl, h1, h2, h3⟩
          · left
            refine leaf hl ?_
            cases k <;> simp_all only [rloop, ne_eq, not_true_eq_false]
    refine ⟨loop, ?_, ?_, ?_, ?_, ?_⟩
    · -- args
      intro k args S toks st R h
      rcases loop _ _ _ _ h with ⟨e, ws, rest, st', t, f', h1, rfl, h3, h4, h5⟩ | ⟨k, args, S', s, rest, t, st', f', h1, h2, rfl, h3, h4, h5⟩
      · cases f' with
        | zero => cases h5
        | succ f' =>
          simp only [rret] at h5
          obtain ⟨es, ws2, s2, rest2, st1, ts, t2, st2, f2, h6, rfl, h7, h8, h9, h10, h11⟩ := (IH f' (by omega)).args _ _ _ _ _ _ h5
          refine ⟨e :: es, ws ++ ws2, s2, rest2, st1, t :: ts, t2, st2, f2, by omega, by simp, .cons _ _ _ _ h3 h7, ?_, by simpa using h9, h10, h11⟩
          simp only [parseList]
          rw [bind_ok_eq h4]
          simp only
          rw [map_ok_eq h8]
      · cases h2
        exact ⟨[], [], s, rest, st, [], t, st', f', h1, rfl, .nil, by simp only [parseList], by simpa using h3, h4, h5⟩
    · -- head
      intro S x toks st R h
      simp only [rhead] at h
      split at h
      · cases h
      · next v hv =>
        split at h
        · next hc =>
          obtain ⟨hc, h2⟩ := hc
          obtain ⟨s, s', r, rfl⟩ := twoOpen_iff.1 h2
          simp only [List.drop_succ_cons, List.drop_zero, Run.bind_ok, Run.ite_err] at h
          obtain ⟨⟨r1, st1, vs⟩, h3, he, vl, h4, h5⟩ := h
          obtain ⟨xs, es, w, s1, e1, h6, h7, h8⟩ := ih.vars _ _ _ _ _ h3
          obtain ⟨as, ws, s2, rest, st2, ts, t, st', f', h9, rfl, h10, h11, h12, h13, h14⟩ := ih.args _ _ _ _ _ _ h5
          have hxs : xs ≠ [] := by
            rintro rfl
            simp only [List.length_nil] at h8
            exact he (by simp [List.length_eq_zero_iff.1 h8.symm])
          simp only [popN, Run.bind_ok] at h13
          obtain ⟨st3, h13, h15⟩ := h13
          cases h15
          rw [e1]
          refine ⟨.binder x xs es as, (.LPAREN, s) :: w ++ (.RPAREN, s1) :: ws ++ [(.RPAREN, s2)], rest, st', t, f', by omega, by simp,
            fun q tk hn => ?_, fun hx => by simp [SExp.indexed, hx], ?_, h14⟩
          · exact .binder q s2 s s1 tk x xs es w as ws hn h6 hxs h10
          · simp only [parseExpr, hv]
            rw [if_neg (by simpa using hxs), if_pos hc, bind_ok_eq h7]
            simp only
            rw [bind_ok_eq h4, bind_ok_eq h11]
            simp only
            rw [bind_ok_eq (by simpa using h12), map_ok_eq h13]
        · next hnb =>
          split at h
          · next hc =>
            obtain ⟨hc, h2⟩ := hc
            obtain ⟨s, s', r, rfl⟩ := twoOpen_iff.1 h2
            simp only [List.drop_succ_cons, List.drop_zero, Run.bind_ok, Run.ite_err] at h
            obtain ⟨⟨r1, st1, vs⟩, h3, he, vl, h4, h5⟩ := h
            obtain ⟨xs, es, w, s1, e1, h6, h7, h8⟩ := ih.lets _ _ _ _ _ h3
            obtain ⟨as, ws, s2, rest, st2, ts, t, st', f', h9, rfl, h10, h11, h12, h13, h14⟩ := ih.args _ _ _ _ _ _ h5
            have hxs : xs ≠ [] := by
              rintro rfl
              simp only [List.length_nil] at h8
              exact he (by simp [List.length_eq_zero_iff.1 h8.symm])
            simp only [popN, Run.bind_ok] at h13
            obtain ⟨st3, h13, h15⟩ := h13
            cases h15
            rw [e1]
            refine ⟨.binder x xs es as, (.LPAREN, s) :: w ++ (.RPAREN, s1) :: ws ++ [(.RPAREN, s2)], rest, st', t, f', by omega, by simp,
              fun q tk hn => ?_, fun hx => by simp [SExp.indexed, hx], ?_, h14⟩
            · exact .binder q s2 s s1 tk x xs es w as ws hn h6 hxs h10
            · simp only [parseExpr, hv]
              rw [if_neg (by simpa using hxs), if_neg (by rw [hc]; decide), if_pos hc, bind_ok_eq h7]
              simp only
              rw [bind_ok_eq h4, bind_ok_eq h11]
              simp only
              rw [bind_ok_eq (by simpa using h12), map_ok_eq h13]
          · next hnl =>
            obtain ⟨as, ws, s2, rest, st2, ts, t, st', f', h9, rfl, h10, h11, h12, h13, h14⟩ := ih.args _ _ _ _ _ _ h
            cases h13
            refine ⟨.app x as, ws ++ [(.RPAREN, s2)], rest, st2, t, f', by omega, by simp, fun q tk hn => by
              simpa using Written.app q s2 tk x as ws hn h10,
              fun hx => by simp [SExp.indexed, hx], ?_, h14⟩
            simp only [parseExpr, hv]
            rw [if_pos, bind_ok_eq h11]
            · simp only
              rw [map_ok_eq (by simpa using h12)]
            · refine binderArgs_of fun hc hq => ?_
              rw [← h10.twoOpen s2 rest] at hq
              rcases hc with hc | hc
              · exact hnb ⟨hc, hq⟩
              · exact hnl ⟨hc, hq⟩
    · -- vars
      intro toks st rest st' vs h
      cases toks with
      | nil => simp [rvars] at h
      | cons tk r =>
        obtain ⟨k, s⟩ := tk
        simp only [rvars] at h
        split at h
        · next hk =>
          subst hk
          simp only [Run.bind_ok, Run.map_ok, eat_ok] at h
          obtain ⟨⟨r1, x⟩, h1, ⟨r2, st1, ty⟩, h2, u, h3, v, h4, r3, ⟨s3, h5⟩, ⟨r4, st4, vs'⟩, h6, h7⟩ := h
          cases h7
          obtain ⟨tk, rfl, hn⟩ := (readName_ok o).1 h1
          obtain ⟨e, we, e8, h9, h10⟩ := ih.expr h2
          simp only at e8 h5
          subst e8 h5
          obtain ⟨xs, es, w, s1, rfl, h11, h12, h13⟩ := ih.vars _ _ _ _ _ h6
          refine ⟨x :: xs, e :: es, _, s1, ?_, .cons s s3 tk x e we xs es w hn h9 h11, ?_, by simpa using h13⟩
          · simp
          · simp only [parseVars]
            rw [bind_ok_eq h10]
            simp only
            rw [bind_ok_eq h3, bind_ok_eq h4, map_ok_eq h12]
        · split at h
          · next hk =>
            subst hk
            cases h
            exact ⟨[], [], [], s, rfl, .nil, by simp only [parseVars], rfl⟩
          · cases h
    · -- lets
      intro toks st rest st' vs h
      cases toks with
      | nil => simp [rlets] at h
      | cons tk r =>
        obtain ⟨k, s⟩ := tk
        simp only [rlets] at h
        split at h
        · next hk =>
          subst hk
          simp only [Run.bind_ok, Run.map_ok, eat_ok] at h
          obtain ⟨⟨r1, x⟩, h1, ⟨r2, st1, t⟩, h2, r3, ⟨s3, h5⟩, tt, h3, v, h4, ⟨r4, st4, vs'⟩, h6, h7⟩ := h
          cases h7
          obtain ⟨tk, rfl, hn⟩ := (readName_ok o).1 h1
          obtain ⟨e, we, e8, h9, h10⟩ := ih.expr h2
          simp only at e8 h5
          subst e8 h5
          obtain ⟨xs, es, w, s1, rfl, h11, h12, h13⟩ := ih.lets _ _ _ _ _ h6
          refine ⟨x :: xs, e :: es, _, s1, ?_, .cons s s3 tk x e we xs es w hn h9 h11, ?_, by simpa using h13⟩
          · simp
          · simp only [parseLets]
            rw [bind_ok_eq h10]
            simp only
            rw [bind_ok_eq h3, bind_ok_eq h4, map_ok_eq h12]
        · split at h
          · next hk =>
            subst hk
            cases h
            exact ⟨[], [], [], s, rfl, .nil, by simp only [parseLets], rfl⟩
          · cases h
    · -- let
      intro S bs toks st R h
      cases toks with
      | nil => simp [rlet] at h
      | cons tk r =>
        obtain ⟨k, s⟩ := tk
        simp only [rlet] at h
        split at h
        · next hk =>
          subst hk
          simp only [Run.bind_ok] at h
          obtain ⟨⟨r1, x⟩, h1, h2⟩ := h
          obtain ⟨tk, rfl, hn⟩ := (readName_ok o).1 h1
          rcases ih.loop _ _ _ _ h2 with ⟨e, we, r2, st1, t, f', h3, h4, h5, h6, h7⟩ | ⟨_, _, _, _, _, _, _, _, _, h3, _⟩
          · simp only at h4
            subst h4
            cases f' with
            | zero => cases h7
            | succ f' =>
              simp only [rret, Run.bind_ok, eat_ok] at h7
              obtain ⟨r3, ⟨s3, rfl⟩, h8⟩ := h7
              obtain ⟨xs, es, w, s4, body, wb, s5, rest, st2, ts, st3, t', st', f2, hf, rfl, h9, h10, h11, h12, h13, h14⟩ :=
                (IH f' (by omega)).let _ _ _ _ _ h8
              refine ⟨x :: xs, e :: es, (.LPAREN, s) :: tk :: we ++ (.RPAREN, s3) :: w, s4, body, wb, s5, rest, st2, t :: ts, st3, t', st', f2, by omega, ?_,
                .cons s s3 tk x e we xs es w hn h5 h9, h10, ?_, ?_, h13, h14⟩
              · simp
              · simp only [parseList]
                rw [bind_ok_eq h6]
                simp only
                rw [map_ok_eq h11]
              · simpa using h12
          · cases h3
        · split at h
          · next hk =>
            subst hk
            rcases ih.loop _ _ _ _ h with ⟨e, we, r2, st1, t, f', h3, h4, h5, h6, h7⟩ | ⟨_, _, _, _, _, _, _, _, _, h3, _⟩
            · subst h4
              cases f' with
              | zero => cases h7
              | succ f' =>
                simp only [rret, Run.bind_ok, eat_ok] at h7
                obtain ⟨r3, ⟨s3, rfl⟩, st2, h8, h9⟩ := h7
                exact ⟨[], [], [], s, e, we, s3, r3, st, [], st1, t, st2, f', by omega, by simp, .nil, h5, by simp only [parseList],
                  by simpa using h6, h8, h9⟩
            · cases h3
          · cases h
end

/-! ### What is written is read -/

section
variable {b : Env} {n : Nat} {o : ReadOpts}

theorem name_tok {tk : Tk} {x : Name} (h : (codeSem o).name tk x) : tk.1 = .SYMBOL ∨ tk.1 = .QUOTED_SYMBOL := by
  obtain ⟨k, s⟩ := tk
  cases k <;> simp_all [codeSem, tokenStrToSymbol]

/-- reading a name at the beginning of a list -/
theorem rloop_head {g : Nat} {S : List PFrame} {s : List Nat} {tk : Tk} {x : Name} {r : List Tk} {st : State} (h : (codeSem o).name tk x) :
    rloop b n o (g + 1) S ((.LPAREN, s) :: tk :: r) st = rhead b n o g S x r st := by
  obtain ⟨k, u⟩ := tk
  have hx : tokenStrToSymbol k u = .ok x := h
  rcases name_tok h with h' | h' <;> simp only at h' <;> subst h' <;> simp only [rloop, hx, Run.bind]

theorem readName_eq {tk : Tk} {x : Name} (h : (codeSem o).name tk x) (r : List Tk) : readName (tk :: r) = .ok (r, x) :=
  (readName_ok o).2 ⟨tk, rfl, h⟩

theorem eat_eq (t : Token) (s : List Nat) (r : List Tk) : eat t ((t, s) :: r) = .ok r := eat_ok.2 ⟨s, rfl⟩

theorem leaf_complete {tk : Tk} {e : SExp} (h : Written (codeSem o) e [tk]) {st st' : State} {t : Term} (hp : parseExpr b n e st = .ok (st', t)) :
    st' = st ∧ tk.1 ≠ .LPAREN ∧ tk.1 ≠ .RPAREN ∧ leafTerm o tk st = .ok t := by
  generalize hw : [tk] = w at h
  have hl := congrArg List.length hw
  cases h with
  | sym tk' x h =>
    cases hw
    obtain ⟨k, u⟩ := tk
    have hx : tokenStrToSymbol k u = .ok x := h
    simp only [parseExpr] at hp
    split at hp
    · cases hp
    · next v hv =>
      simp only [Run.ite_err] at hp
      obtain ⟨hb, hp⟩ := hp
      cases hp
      rcases name_tok h with h' | h' <;> simp only at h' <;> subst h' <;>
        simp only [leafTerm, hx, Run.bind, hv] <;> rw [if_neg hb] <;> simp
  | lit tk' l h =>
    cases hw
    obtain ⟨k, u⟩ := tk
    have hx : litOfToken o (k, u) = .ok l := h
    cases hp
    cases k <;> simp_all [leafTerm, litOfToken, Run.map] <;> first | rfl | cases hx
  | type s => cases hw; cases hp; simp [leafTerm]
  | bool s => cases hw; cases hp; simp [leafTerm]
  | _ => simp at hl

theorem rloop_leaf {g : Nat} {S : List PFrame} {tk : Tk} {r : List Tk} {st : State} {t : Term} (h1 : tk.1 ≠ .LPAREN) (h2 : tk.1 ≠ .RPAREN)
    (h : leafTerm o tk st = .ok t) : rloop b n o (g + 1) S (tk :: r) st = rret b n o g S r st t := by
  obtain ⟨k, u⟩ := tk
  cases k <;> simp_all [rloop, Run.bind]

theorem rloop_leaf_complete {tk : Tk} {e : SExp} (h : Written (codeSem o) e [tk]) {f g : Nat} {S : List PFrame} {rest : List Tk} {st st' : State}
    {t : Term} {R} (hp : parseExpr b n e st = .ok (st', t)) (hr : rret b n o f S rest st' t = .ok R) (hg : f < g) :
    rloop b n o g S (tk :: rest) st = .ok R := by
  obtain ⟨rfl, h1, h2, h3⟩ := leaf_complete h hp
  cases g with
  | zero => omega
  | succ g => rw [rloop_leaf h1 h2 h3]; exact rret_mono (by omega) hr

theorem _root_.Ethos.Spec.WrittenBinds.open {xs : List Name} {es : List SExp} {w : List Tk} {G : TokSem} (h : WrittenBinds G xs es w) (hx : xs ≠ []) :
    ∃ s r, w = (.LPAREN, s) :: r := by
  cases h with
  | nil => exact absurd rfl hx
  | cons s s' tk x e w xs es ws => exact ⟨s, _, by rw [List.cons_append]⟩

theorem parseVars_length : ∀ {xs : List Name} {es : List SExp} {st st' vs}, xs.length = es.length → parseVars b n xs es st = .ok (st', vs) →
    vs.length = xs.length
  | [], [], _, _, _, _, h => by simp only [parseVars] at h; cases h; rfl
  | x :: xs, e :: es, st, st', vs, hl, h => by
    simp only [parseVars, Run.bind_ok, Run.map_ok] at h
    obtain ⟨_, _, _, _, _, _, ⟨_, _⟩, h, h'⟩ := h
    cases h'
    have := parseVars_length (by simpa using hl) h
    simpa using this

theorem parseLets_length : ∀ {xs : List Name} {es : List SExp} {st st' vs}, xs.length = es.length → parseLets b n xs es st = .ok (st', vs) →
    vs.length = xs.length
  | [], [], _, _, _, _, h => by simp only [parseLets] at h; cases h; rfl
  | x :: xs, e :: es, st, st', vs, hl, h => by
    simp only [parseLets, Run.bind_ok, Run.map_ok] at h
    obtain ⟨_, _, _, _, _, _, ⟨_, _⟩, h, h'⟩ := h
    cases h'
    have := parseLets_length (by simpa using hl) h
    simpa using this

theorem _root_.Ethos.Spec.WrittenBinds.length_eq {G : TokSem} : ∀ {xs : List Name} {es : List SExp} {w : List Tk}, WrittenBinds G xs es w →
    xs.length = es.length
  | _, _, _, .nil => rfl
  | _, _, _, .cons _ _ _ _ _ _ _ _ _ _ _ h => by simpa using h.length_eq

/-- the end of an application -/
theorem rloop_close {f k : Nat} {args : List Term} {S : List PFrame} {s : List Nat} {rest : List Tk} {st st' : State} {t : Term} {R}
    (h1 : st.build b n APPLY args = .ok t) (h2 : popN k st = .ok st') (h3 : rret b n o f S rest st' t = .ok R) :
    rloop b n o (f + 1) (.nextArg k args :: S) ((.RPAREN, s) :: rest) st = .ok R := by
  simp only [rloop, h1, h2, Run.bind, h3]

/-- the name at the beginning of an indexed form -/
theorem indexed_open {h : SExp} {w : List Tk} (hi : SExp.isIndexed h) (hw : Written (codeSem o) h w) :
    ∃ s tk x r, w = (.LPAREN, s) :: tk :: r ∧ (codeSem o).name tk x ∧ (x = nm "_" ∨ x = nm "as") := by
  have hi := indexed_iff.2 hi
  cases hw <;> simp [SExp.indexed] at hi
  · exact ⟨_, _, _, _, rfl, by assumption, hi⟩
  · exact ⟨_, _, _, _, rfl, by assumption, hi⟩

mutual
theorem rloop_complete : ∀ {e : SExp} {ws : List Tk}, Written (codeSem o) e ws → ∀ {f : Nat} {S rest st st' t R},
    parseExpr b n e st = .ok (st', t) → rret b n o f S rest st' t = .ok R →
    ∀ g, f + 4 * ws.length ≤ g + 1 → rloop b n o g S (ws ++ rest) st = .ok R
  | _, _, .sym tk x h, f, S, rest, st, st', t, R, hp, hr, g, hg =>
    rloop_leaf_complete (.sym tk x h) hp hr (by simp at hg; omega)
  | _, _, .lit tk x h, f, S, rest, st, st', t, R, hp, hr, g, hg =>
    rloop_leaf_complete (.lit tk x h) hp hr (by simp at hg; omega)
  | _, _, .type s, f, S, rest, st, st', t, R, hp, hr, g, hg =>
    rloop_leaf_complete (.type s) hp hr (by simp at hg; omega)
  | _, _, .bool s, f, S, rest, st, st', t, R, hp, hr, g, hg =>
    rloop_leaf_complete (.bool s) hp hr (by simp at hg; omega)
  | _, _, .app s s' tk x es ws hn ha, f, S, rest, st, st', t, R, hp, hr, g, hg => by
    simp only [List.length_append, List.length_cons, List.length_nil] at hg
    obtain ⟨g, rfl⟩ : ∃ g', g = g' + 2 := ⟨g - 2, by omega⟩
    simp only [List.cons_append, List.append_assoc, List.nil_append]
    rw [rloop_head hn]
    simp only [rhead]
    simp only [parseExpr] at hp
    split at hp
    · cases hp
    · next v hv =>
      try simp only [hv]
      simp only [Run.ite_err', Run.bind_ok, Run.map_ok] at hp
      obtain ⟨hb, ⟨st1, ts⟩, h1, t', h2, h3⟩ := hp
      cases h3
      have nb : ∀ a, (a = .BINDER ∨ a = .LET_BINDER) → ¬ ((st.env b).constructorKind v = a ∧ twoOpen (ws ++ (.RPAREN, s') :: rest)) := by
        rintro a ha' ⟨hc, h2⟩
        obtain ⟨q, as, es', rfl⟩ := (ha.twoOpen s' rest).1 h2
        simp only [binderArgs, hc, decide_eq_true_eq] at hb
        rcases ha' with rfl | rfl
        · exact hb.1 rfl
        · exact hb.2 rfl
      rw [if_neg (nb _ (.inl rfl)), if_neg (nb _ (.inr rfl))]
      refine args_complete ha h1 (args := [v]) (rloop_close (by simpa using h2) (by simp only [popN]) hr) g (by omega)
  | _, _, .appq s s' h w es ws hi hw ha, f, S, rest, st, st', t, R, hp, hr, g, hg => by
    simp only [List.length_append, List.length_cons, List.length_nil] at hg
    obtain ⟨u, tk, x, r, rfl, hn, hx⟩ := indexed_open hi hw
    simp only [parseExpr] at hp
    rw [if_pos (indexed_iff.2 hi)] at hp
    simp only [Run.bind_ok, Run.map_ok] at hp
    obtain ⟨⟨st1, t1⟩, h1, ⟨st2, ts⟩, h2, t', h3, h4⟩ := hp
    cases h4
    have hA : rloop b n o (f + 1 + 4 * ws.length) (.nextArg 0 [t1] :: S) (ws ++ (.RPAREN, s') :: rest) st1 = .ok R :=
      args_complete ha h2 (args := [t1]) (rloop_close (by simpa using h3) (by simp only [popN]) hr) _ (Nat.le_refl _)
    have hB : rret b n o (f + 1 + 4 * ws.length + 1) (.nextArg 0 [] :: S) (ws ++ (.RPAREN, s') :: rest) st1 t1 = .ok R := by
      simpa only [rret, List.nil_append] using hA
    obtain ⟨g, rfl⟩ : ∃ g', g = g' + 1 := ⟨g - 1, by omega⟩
    have hC := rloop_complete hw h1 hB (g + 1) (by simp only [List.length_cons] at hg ⊢; omega)
    simp only [List.cons_append, List.append_assoc, List.nil_append] at hC ⊢
    rw [rloop_head hn] at hC
    simp only [rloop, readName_eq hn, Run.bind]
    rw [if_pos hx]
    exact hC
  | _, _, .binder s s' u u' tk x xs es w as ws hn hb hxs ha, f, S, rest, st, st', t, R, hp, hr, g, hg => by
    simp only [List.length_append, List.length_cons, List.length_nil] at hg
    obtain ⟨g, rfl⟩ : ∃ g', g = g' + 2 := ⟨g - 2, by omega⟩
    simp only [List.cons_append, List.append_assoc, List.nil_append]
    rw [rloop_head hn]
    have h2o : twoOpen ((.LPAREN, u) :: (w ++ (.RPAREN, u') :: (ws ++ (.RPAREN, s') :: rest))) = true := by
      obtain ⟨q, r, rfl⟩ := hb.open hxs
      simp [Ethos.twoOpen]
    simp only [rhead]
    simp only [parseExpr] at hp
    split at hp
    · cases hp
    · next v hv =>
      try simp only [hv]
      rw [if_neg (by simpa using hxs)] at hp
      split at hp
      · next hc =>
        simp only [Run.bind_ok, Run.map_ok] at hp
        obtain ⟨⟨st1, vs⟩, h1, vl, h2, ⟨st2, ts⟩, h3, t', h4, st3, h5, h6⟩ := hp
        cases h6
        rw [if_pos ⟨hc, h2o⟩]
        simp only [List.drop_succ_cons, List.drop_zero]
        rw [bind_ok_eq (vars_complete hb h1 u' _ g (by omega))]
        simp only
        rw [if_neg, bind_ok_eq h2]
        · exact args_complete ha h3 (args := [v, vl]) (rloop_close (by simpa using h4) (by simp only [popN, h5, Run.bind]) hr) g (by omega)
        · have := parseVars_length hb.length_eq h1
          cases vs with
          | nil => simp only [List.length_nil] at this; exact absurd (List.length_eq_zero_iff.1 this.symm) hxs
          | cons => simp
      · next hnc =>
        split at hp
        · next hc =>
          simp only [Run.bind_ok, Run.map_ok] at hp
          obtain ⟨⟨st1, vs⟩, h1, vl, h2, ⟨st2, ts⟩, h3, t', h4, st3, h5, h6⟩ := hp
          cases h6
          rw [if_neg (fun h => hnc h.1), if_pos ⟨hc, h2o⟩]
          simp only [List.drop_succ_cons, List.drop_zero]
          rw [bind_ok_eq (lets_complete hb h1 u' _ g (by omega))]
          simp only
          rw [if_neg, bind_ok_eq h2]
          · exact args_complete ha h3 (args := [v, vl]) (rloop_close (by simpa using h4) (by simp only [popN, h5, Run.bind]) hr) g (by omega)
          · have := parseLets_length hb.length_eq h1
            cases vs with
            | nil => simp only [List.length_nil] at this; exact absurd (List.length_eq_zero_iff.1 this.symm) hxs
            | cons => simp
        · cases hp
  | _, _, .letE s s' u u' tk xs es w body wb hk hb hw, f, S, rest, st, st', t, R, hp, hr, g, hg => by
    simp only [List.length_append, List.length_cons, List.length_nil] at hg
    obtain ⟨g, rfl⟩ : ∃ g', g = g' + 1 := ⟨g - 1, by omega⟩
    simp only [parseExpr, Run.bind_ok, Run.map_ok] at hp
    obtain ⟨⟨st1, ts⟩, h1, ⟨st2, t'⟩, h2, st3, h3, h4⟩ := hp
    cases h4
    have hA : rret b n o (f + 1) (.letBody :: S) ((.RPAREN, s') :: rest) st2 t' = .ok R := by
      simp only [rret, eat_eq, Run.bind, h3, hr]
    have hB := rloop_complete hw h2 hA (f + 4 * wb.length) (by omega)
    have hC : rlet b n o (f + 4 * wb.length + 1) S (xs.zip ts) ((.RPAREN, u') :: (wb ++ (.RPAREN, s') :: rest)) st1 = .ok R := by
      simp only [rlet, reduceCtorEq, if_false, if_true]
      exact hB
    have hD := let_complete hb h1 (bs := []) (by simpa using hC) g (by omega)
    obtain ⟨k, q⟩ := tk
    simp only [List.cons_append, List.append_assoc, List.nil_append]
    rcases hk with hk | hk <;> simp only at hk <;> subst hk <;> simp only [rloop, eat_eq, Run.bind] <;> exact hD
  | _, _, .annot s s' k e w a hw ha, f, S, rest, st, st', t, R, hp, hr, g, hg => by
    simp only [List.length_append, List.length_cons, List.length_nil] at hg
    obtain ⟨g, rfl⟩ : ∃ g', g = g' + 1 := ⟨g - 1, by omega⟩
    simp only [parseExpr] at hp
    have hA : rret b n o (f + a.length + 1 + 1) (.annot :: S) (a ++ (.RPAREN, s') :: rest) st' t = .ok R := by
      simp only [rret]
      rw [skipAttrs_complete ha s' rest _ (by omega)]
      simp only [eat_eq, Run.bind]
      exact rret_mono (by omega) hr
    have hB := rloop_complete hw hp hA g (by omega)
    simpa only [List.cons_append, List.append_assoc, List.nil_append, rloop] using hB
theorem args_complete : ∀ {es : List SExp} {ws : List Tk}, WrittenAll (codeSem o) es ws → ∀ {f k : Nat} {args S rest st st' ts R},
    parseList b n es st = .ok (st', ts) → rloop b n o f (.nextArg k (args ++ ts) :: S) rest st' = .ok R →
    ∀ g, f + 4 * ws.length ≤ g → rloop b n o g (.nextArg k args :: S) (ws ++ rest) st = .ok R
  | _, _, .nil, f, k, args, S, rest, st, st', ts, R, hp, hr, g, hg => by
    simp only [parseList] at hp
    cases hp
    exact rloop_mono (by simpa using hg) (by simpa using hr)
  | _, _, .cons e w es ws he hes, f, k, args, S, rest, st, st', ts, R, hp, hr, g, hg => by
    simp only [List.length_append] at hg
    simp only [parseList, Run.bind_ok, Run.map_ok] at hp
    obtain ⟨⟨st1, t⟩, h1, ⟨st2, ts'⟩, h2, h3⟩ := hp
    cases h3
    have hA := args_complete hes h2 (args := args ++ [t]) (by simpa using hr) _ (Nat.le_refl _)
    have hB : rret b n o (f + 4 * ws.length + 1) (.nextArg k args :: S) (ws ++ rest) st1 t = .ok R := by simpa only [rret] using hA
    rw [List.append_assoc]
    exact rloop_complete he h1 hB g (by omega)
theorem vars_complete : ∀ {xs : List Name} {es : List SExp} {w : List Tk}, WrittenBinds (codeSem o) xs es w → ∀ {st st' vs},
    parseVars b n xs es st = .ok (st', vs) → ∀ s rest g, 4 * w.length + 1 ≤ g →
    rvars b n o g (w ++ (.RPAREN, s) :: rest) st = .ok (rest, st', vs)
  | _, _, _, .nil, st, st', vs, hp, s, rest, g, hg => by
    simp only [parseVars] at hp
    cases hp
    obtain ⟨g, rfl⟩ : ∃ g', g = g' + 1 := ⟨g - 1, by omega⟩
    simp [rvars]
  | _, _, _, .cons s s' tk x e w xs es ws hn he hes, st, st', vs, hp, s2, rest, g, hg => by
    simp only [List.length_append, List.length_cons] at hg
    obtain ⟨g, rfl⟩ : ∃ g', g = g' + 1 := ⟨g - 1, by omega⟩
    simp only [parseVars, Run.bind_ok, Run.map_ok] at hp
    obtain ⟨⟨st1, t⟩, h1, u, h2, v, h3, ⟨st2, vs'⟩, h4, h5⟩ := hp
    cases h5
    have hA := rloop_complete he h1 (f := 1) (S := []) (rest := (.RPAREN, s') :: (ws ++ (.RPAREN, s2) :: rest)) (by simp only [rret]; rfl) g (by omega)
    simp only [List.cons_append, List.append_assoc, rvars, if_true]
    rw [bind_ok_eq (readName_eq hn _)]
    simp only
    rw [bind_ok_eq hA]
    simp only
    rw [bind_ok_eq h2, bind_ok_eq h3, bind_ok_eq (eat_eq _ _ _), map_ok_eq (vars_complete hes h4 s2 rest g (by omega))]
theorem lets_complete : ∀ {xs : List Name} {es : List SExp} {w : List Tk}, WrittenBinds (codeSem o) xs es w → ∀ {st st' vs},
    parseLets b n xs es st = .ok (st', vs) → ∀ s rest g, 4 * w.length + 1 ≤ g →
    rlets b n o g (w ++ (.RPAREN, s) :: rest) st = .ok (rest, st', vs)
  | _, _, _, .nil, st, st', vs, hp, s, rest, g, hg => by
    simp only [parseLets] at hp
    cases hp
    obtain ⟨g, rfl⟩ : ∃ g', g = g' + 1 := ⟨g - 1, by omega⟩
    simp [rlets]
  | _, _, _, .cons s s' tk x e w xs es ws hn he hes, st, st', vs, hp, s2, rest, g, hg => by
    simp only [List.length_append, List.length_cons] at hg
    obtain ⟨g, rfl⟩ : ∃ g', g = g' + 1 := ⟨g - 1, by omega⟩
    simp only [parseLets, Run.bind_ok, Run.map_ok] at hp
    obtain ⟨⟨st1, t⟩, h1, u, h2, v, h3, ⟨st2, vs'⟩, h4, h5⟩ := hp
    cases h5
    have hA := rloop_complete he h1 (f := 1) (S := []) (rest := (.RPAREN, s') :: (ws ++ (.RPAREN, s2) :: rest)) (by simp only [rret]; rfl) g (by omega)
    simp only [List.cons_append, List.append_assoc, rlets, if_true]
    rw [bind_ok_eq (readName_eq hn _)]
    simp only
    rw [bind_ok_eq hA]
    simp only
    rw [bind_ok_eq (eat_eq _ _ _), bind_ok_eq h2, bind_ok_eq h3, map_ok_eq (lets_complete hes h4 s2 rest g (by omega))]
theorem let_complete : ∀ {xs : List Name} {es : List SExp} {w : List Tk}, WrittenBinds (codeSem o) xs es w → ∀ {f S bs rest st st' ts R},
    parseList b n es st = .ok (st', ts) → rlet b n o f S (bs ++ xs.zip ts) rest st' = .ok R →
    ∀ g, f + 4 * w.length ≤ g → rlet b n o g S bs (w ++ rest) st = .ok R
  | _, _, _, .nil, f, S, bs, rest, st, st', ts, R, hp, hr, g, hg => by
    simp only [parseList] at hp
    cases hp
    exact rlet_mono (by simpa using hg) (by simpa using hr)
  | _, _, _, .cons s s' tk x e w xs es ws hn he hes, f, S, bs, rest, st, st', ts, R, hp, hr, g, hg => by
    simp only [List.length_append, List.length_cons] at hg
    obtain ⟨g, rfl⟩ : ∃ g', g = g' + 1 := ⟨g - 1, by omega⟩
    simp only [parseList, Run.bind_ok, Run.map_ok] at hp
    obtain ⟨⟨st1, t⟩, h1, ⟨st2, ts'⟩, h2, h3⟩ := hp
    cases h3
    have hA := let_complete hes h2 (bs := bs ++ [(x, t)]) (by simpa using hr) _ (Nat.le_refl _)
    have hB : rret b n o (f + 4 * ws.length + 1) (.letNext bs x :: S) ((.RPAREN, s') :: (ws ++ rest)) st1 t = .ok R := by
      simpa only [rret, eat_eq, Run.bind] using hA
    have hC := rloop_complete he h1 hB g (by omega)
    simp only [List.cons_append, List.append_assoc, rlet, if_true]
    rw [bind_ok_eq (readName_eq hn _)]
    exact hC
end

/-- an expression is read exactly if it is written, in terms of the meanings the code gives to tokens -/
theorem readExpr_iff {toks rest : List Tk} {st st' : State} {t : Term} : readExpr b n o toks st = .ok (rest, st', t) ↔
    ∃ e ws, toks = ws ++ rest ∧ Written (codeSem o) e ws ∧ parseExpr b n e st = .ok (st', t) := by
  constructor
  · intro h
    exact (soundAt _).expr h
  · rintro ⟨e, ws, rfl, h1, h2⟩
    exact rloop_complete h1 h2 (f := 1) (by simp only [rret]) _ (by simp only [List.length_append]; omega)
end

end Ethos.Props
