import Verif.Lemmas.CmdReads
import Verif.Spec.CmdRun
import Verif.Props.Reader
import Verif.Props.Rules
/-
C67: commands are read by the grammar.
-/
namespace Ethos.Props
open Ethos Kind Ethos.Spec

theorem cmdRun_iff {b : Env} {n : Nat} {c : Cmd} {eff : Option (Name × Bool)} {st st' : State} {af : After} :
    cmdRun b n (c, eff) st = .ok (st', af) ↔ Outcome b n c eff st st' af := by
  have hord : ∀ c : Cmd, Ordinary c → (cmdRun b n (c, eff) st = .ok (st', af) ↔ Outcome b n c eff st st' af) := by
    intro c hc
    rw [cmdRun_plain b n (show Plain c from hc), Run.map_ok]
    constructor
    · rintro ⟨s, hs, he⟩
      cases eff with
      | none => cases he; exact .next c st _ hc hs
      | some p => cases he; exact .option c _ _ st _ hc hs
    · intro h
      cases h with
      | next _ _ _ _ h => exact ⟨_, h, rfl⟩
      | option _ _ _ _ _ _ h => exact ⟨_, h, rfl⟩
      | _ => exact hc.elim
  cases c with
  | exit =>
    constructor
    · intro h; cases h; exact .exit eff st
    · intro h
      cases h with
      | exit => rfl
      | next _ _ _ h => exact h.elim
      | option _ _ _ _ _ h => exact h.elim
  | incl f =>
    unfold cmdRun
    constructor
    · intro h
      dsimp only at h
      split at h
      · cases h
      · cases h
        exact .incl f eff st (Decidable.of_not_not ‹_›)
    · intro h
      cases h with
      | incl _ _ _ h => simp [h]
      | next _ _ _ h => exact h.elim
      | option _ _ _ _ _ h => exact h.elim
  | reference f nf =>
    unfold cmdRun
    constructor
    · intro h
      dsimp only at h
      split at h
      · cases h
      · rename_i hn
        have h1 : st.asmCtx = [] := Decidable.of_not_not fun hx => hn (.inr hx)
        have h2 : st.hasRef = false := by
          cases hx : st.hasRef
          · rfl
          · exact absurd (.inl hx) hn
        obtain ⟨q, hq, he⟩ := Run.map_ok.1 h
        cases he
        cases nf with
        | none => cases hq; exact .reference f eff st h1 h2
        | some e =>
          obtain ⟨p, hp, he⟩ := Run.map_ok.1 hq
          cases he
          exact .referenceNf f e eff st _ _ h1 h2 hp
    · intro h
      cases h with
      | reference _ _ _ h1 h2 => simp [h1, h2, parseOpt, Run.map]
      | referenceNf _ e _ _ _ t h1 h2 h3 => simp [h1, h2, parseOpt, Run.map, h3]
      | next _ _ _ h => exact h.elim
      | option _ _ _ _ _ h => exact h.elim
  | _ =>
    exact hord _ (by exact trivial)

/-- **C67**: a command is read from the tokens after `(` up to `)` exactly if they are the name of a command that is allowed in the file, and
its parts as the grammar says, and the command can be executed; the result is that of executing it. -/
theorem C67_command {b : Env} {n : Nat} {o : ReadOpts} {fl : LexFlags} {isRef : Bool} {toks rest : List Tk} {s : List Nat} {st st' : State} {af : After}
    (h : ∀ tk ∈ toks, GoodTok fl tk) :
    readCmd b n o isRef toks st = .ok ((.RPAREN, s) :: rest, st', af) ↔
      ∃ name c eff w, toks = (.SYMBOL, bytes name) :: w ++ (.RPAREN, s) :: rest ∧ Body (tokSem o) true isRef name c eff w ∧
        c.allowed isRef = true ∧ Outcome b n c eff st st' af := by
  rw [readCmd_iff b n o h]
  simp only [cmdRun_iff]

/-- C67: tokens that are two commands do the same by both. -/
theorem C67_unique {b : Env} {n : Nat} {o : ReadOpts} {fl : LexFlags} {isRef : Bool} {name name' : String} {c c' : Cmd} {eff eff' : Option (Name × Bool)}
    {w w' : List Tk} {s : List Nat} {st st1 st2 : State} {af af' : After} (hg : ∀ tk ∈ (.SYMBOL, bytes name) :: w ++ [(.RPAREN, s)], GoodTok fl tk)
    (h : (.SYMBOL, bytes name) :: w = ((.SYMBOL, bytes name') :: w' : List Tk))
    (h1 : Body (tokSem o) true isRef name c eff w) (h2 : Body (tokSem o) true isRef name' c' eff' w')
    (ha : c.allowed isRef = true) (ha' : c'.allowed isRef = true) (ho : Outcome b n c eff st st1 af) (ho' : Outcome b n c' eff' st st2 af') :
    st1 = st2 ∧ af = af' := by
  have e1 := (C67_command hg).2 ⟨name, c, eff, w, rfl, h1, ha, ho⟩
  have e2 := (C67_command (rest := []) hg).2 ⟨name', c', eff', w', by rw [h], h2, ha', ho'⟩
  rw [e1] at e2
  cases e2
  exact ⟨rfl, rfl⟩

/-! ### The grammar without the inputs that only the code accepts -/

theorem Num.lax {k : Nat} {w : List Tk} (h : Num false k w) : Num true k w := by
  cases h with
  | mk ds h1 h2 h3 => exact .mk ds h1 h2 h3
  | large _ h => cases h
  | minus _ h => cases h
  | minusLarge _ h => cases h

theorem Value.lax {w : List Tk} (h : Value false w) : Value true w := by
  cases h with
  | mk h => exact .mk _ h
  | flipped h => cases h

theorem StepArgs.lax {G : TokSem} {s : List SExp × List SExp} {w : List Tk} (h : StepArgs G false s w) : StepArgs G true s w := by
  cases h with
  | mk ps as w w' h1 h2 => exact .mk ps as w w' h1 h2
  | other _ _ _ h => cases h

theorem Body.lax {G : TokSem} {isRef : Bool} {x : String} {c : Cmd} {eff : Option (Name × Bool)} {w : List Tk} (h : Body G false isRef x c eff w) :
    Body G true isRef x c eff w := by
  cases h with
  | declareSort x k w w' h1 h2 => exact .declareSort x k w w' h1 (Num.lax h2)
  | step x f r ps as w w' w'' v h1 h2 h3 h4 => exact .step x f r ps as w w' w'' v h1 h2 h3 (StepArgs.lax h4)
  | stepPop x f r ps as w w' w'' v h1 h2 h3 h4 => exact .stepPop x f r ps as w w' w'' v h1 h2 h3 (StepArgs.lax h4)
  | push k w h => exact .push k w (by cases h with | absent => exact .absent | present _ _ h => exact .present _ _ (Num.lax h))
  | pop k w h => exact .pop k w (by cases h with | absent => exact .absent | present _ _ h => exact .present _ _ (Num.lax h))
  | setInfo k w h1 h => exact .setInfo k w h1 (Value.lax h)
  | setOption k v eff h1 h2 => exact .setOption k v eff (Value.lax h1) h2
  | declareDatatypes xs ds w w' h1 h2 =>
    refine .declareDatatypes xs ds w w' ?_ h2
    have hb : ∀ s v, Parens (Both (NameW G) (Num false)) s v → Parens (Both (NameW G) (Num true)) s v := by
      intro s v h
      cases h with
      | mk u u' w h =>
        obtain ⟨a, a', rfl, h1, h2⟩ := both_iff.1 h
        exact .mk _ _ _ _ (both_iff.2 ⟨_, _, rfl, h1, Num.lax h2⟩)
    cases h1 with
    | mk u u' w h =>
      refine .mk _ u u' w ?_
      clear h2
      induction h with
      | nil => exact .nil
      | cons s v ss vs h _ ih => exact .cons s v ss vs (hb _ _ h) ih
  | _ => constructor <;> assumption

/-- C67: a command of the grammar proper is read and executed. -/
theorem C67_complete {b : Env} {n : Nat} {o : ReadOpts} {fl : LexFlags} {isRef : Bool} {name : String} {c : Cmd} {eff : Option (Name × Bool)} {w rest : List Tk}
    {s : List Nat} {st st' : State} {af : After} (hg : ∀ tk ∈ (.SYMBOL, bytes name) :: w ++ (.RPAREN, s) :: rest, GoodTok fl tk)
    (h : Body (tokSem o) false isRef name c eff w) (ha : c.allowed isRef = true) (ho : Outcome b n c eff st st' af) :
    readCmd b n o isRef ((.SYMBOL, bytes name) :: w ++ (.RPAREN, s) :: rest) st = .ok ((.RPAREN, s) :: rest, st', af) :=
  (C67_command hg).2 ⟨name, c, eff, w, rfl, Body.lax h, ha, ho⟩

/-! ### Examples -/

/-- a step, without the parenthesis before it, and another command -/
def cmdText : List Nat := bytes "step s q :rule mp :premises (h1 h2)) (assume-push h p)"
def cmdToks : List Tk :=
  [(.SYMBOL, bytes "step"), (.SYMBOL, bytes "s"), (.SYMBOL, bytes "q"), (.KEYWORD, bytes ":rule"), (.SYMBOL, bytes "mp"), (.KEYWORD, bytes ":premises"),
   (.LPAREN, bytes "("), (.SYMBOL, bytes "h1"), (.SYMBOL, bytes "h2"), (.RPAREN, bytes ")"), (.RPAREN, bytes ")"), (.LPAREN, bytes "("),
   (.SYMBOL, bytes "assume-push"), (.SYMBOL, bytes "h"), (.SYMBOL, bytes "p"), (.RPAREN, bytes ")")]
theorem cmdText_lexed : lexInput ⟨true, false⟩ (.init true false 8 cmdText) = .ok cmdToks := by decide +kernel
theorem cmdToks_good : ∀ tk ∈ cmdToks, GoodTok ⟨true, false⟩ tk :=
  goodTok_of (s := cmdText) (by decide +kernel) cmdText_lexed (by decide +kernel) (by decide +kernel)

/-- C67: modus ponens is read from its tokens, up to the parenthesis -/
example : ((exRun mpCmds).bind fun st => (readCmd exB 10 readOpts false cmdToks st)).map
    (fun p => (p.1, p.2.1.scope.get (nm "s"))) = .ok (cmdToks.drop 10, some (.node PROOF [.sym CONST 12])) := by decide +kernel

/-- C67: its body -/
theorem cmdToks_body : Body (tokSem readOpts) false false "step" (.step { name := nm "s", conc := some (sy "q"), rule := nm "mp", premises := [sy "h1", sy "h2"] }) none
    ((cmdToks.drop 1).take 9) := by
  have hS : ∀ x : String, (tokSem readOpts).name (.SYMBOL, bytes x) (bytes x) := fun x => .plain _
  exact .step _ _ _ _ _ [_] [_] [_] _ (.mk _ _ (hS "s")) (.present _ _ (.sym _ _ (hS "q"))) (.mk _ _ (hS "mp")) (.mk _ _ _ []
    (.present _ _ (.mk _ _ _ _ (.cons _ [_] _ _ (.sym _ _ (hS "h1")) (.cons _ [_] _ [] (.sym _ _ (hS "h2")) .nil)))) .absent)

/-! ### Inputs that are no commands -/

/-- C67 fails for the grammar proper: a sort with minus one arguments has 2^32 - 1 arguments. -/
theorem C67_numeral_refuted : ∃ (toks : List Tk) (fl : LexFlags) (o : ReadOpts) (s : List Nat), (∀ tk ∈ (.SYMBOL, bytes "declare-sort") :: toks ++ [(.RPAREN, s)], GoodTok fl tk) ∧
    (∀ b n st, ∃ st', readCmd b n o false ((.SYMBOL, bytes "declare-sort") :: toks ++ [(.RPAREN, s)]) st = .ok ([(.RPAREN, s)], st', .next)) ∧
    ¬ ∃ c eff, Body (tokSem o) false false "declare-sort" c eff toks := by
  have hg : ∀ tk ∈ ((.SYMBOL, bytes "declare-sort") :: [(.SYMBOL, bytes "S"), (.INTEGER_LITERAL, bytes "-1")] ++ [(.RPAREN, bytes ")")] : List Tk), GoodTok ⟨true, false⟩ tk :=
    goodTok_of (s := bytes "declare-sort S -1)") (by decide +kernel) (by decide +kernel) (by decide +kernel) (by decide +kernel)
  refine ⟨[(.SYMBOL, bytes "S"), (.INTEGER_LITERAL, bytes "-1")], ⟨true, false⟩, readOpts, bytes ")", hg, ?_, ?_⟩
  · intro b n st
    exact ⟨_, (C67_command hg).2 ⟨_, .declareSort (bytes "S") _, none, _, rfl, .declareSort _ _ [_] [_] (.mk _ _ (.plain _))
      (.minus (bytes "1") rfl ⟨by decide, by decide⟩ (by decide)), rfl, .next _ _ _ trivial rfl⟩⟩
  · rintro ⟨c, eff, h⟩
    generalize ht : ([(.SYMBOL, bytes "S"), (.INTEGER_LITERAL, bytes "-1")] : List Tk) = toks at h
    generalize hn : "declare-sort" = y at h
    cases h with
    | declareSort x k w w' h1 h2 =>
      cases h1
      cases h2 with
      | mk ds h _ _ =>
        simp only [List.cons_append, List.nil_append, List.cons.injEq, Prod.mk.injEq, true_and, and_true] at ht
        rw [← ht.2] at h
        exact absurd (h.2 45 (by decide)) (by decide)
      | large _ h => cases h
      | minus _ h => cases h
      | minusLarge _ h => cases h
    | _ => exact absurd hn (by decide)

/-- C67 fails for the grammar proper: a value of a piece of information can be `)(`, so that the text `(set-info :xy )()` is one command. -/
theorem C67_value_refuted : ∃ (toks : List Tk) (fl : LexFlags) (o : ReadOpts) (s : List Nat), (∀ tk ∈ (.SYMBOL, bytes "set-info") :: toks ++ [(.RPAREN, s)], GoodTok fl tk) ∧
    (∀ b n st, readCmd b n o true ((.SYMBOL, bytes "set-info") :: toks ++ [(.RPAREN, s)]) st = .ok ([(.RPAREN, s)], st, .next)) ∧
    ¬ ∃ c eff, Body (tokSem o) false true "set-info" c eff toks := by
  have hg : ∀ tk ∈ ((.SYMBOL, bytes "set-info") :: [(.KEYWORD, bytes ":xy"), (.RPAREN, bytes ")"), (.LPAREN, bytes "(")] ++ [(.RPAREN, bytes ")")] : List Tk), GoodTok ⟨true, false⟩ tk :=
    goodTok_of (s := bytes "set-info :xy )()") (by decide +kernel) (by decide +kernel) (by decide +kernel) (by decide +kernel)
  refine ⟨[(.KEYWORD, bytes ":xy"), (.RPAREN, bytes ")"), (.LPAREN, bytes "(")], ⟨true, false⟩, readOpts, bytes ")", hg, ?_, ?_⟩
  · intro b n st
    exact (C67_command hg).2 ⟨_, .nop, none, _, rfl, .setInfo _ _ rfl (.flipped _ rfl (.list _ _ [] .nil)), rfl, .next _ _ _ trivial rfl⟩
  · rintro ⟨c, eff, h⟩
    generalize ht : ([(.KEYWORD, bytes ":xy"), (.RPAREN, bytes ")"), (.LPAREN, bytes "(")] : List Tk) = toks at h
    generalize hn : "set-info" = y at h
    cases h with
    | setInfo k w _ h =>
      simp only [List.cons.injEq, Prod.mk.injEq, true_and] at ht
      obtain ⟨_, rfl⟩ := ht
      cases h with
      | mk h => cases h
      | flipped h => cases h
    | _ => exact absurd hn (by decide)

/-- C67 fails for the grammar proper: a step can end with any keyword. -/
theorem C67_keyword_refuted : ∃ (toks : List Tk) (fl : LexFlags) (o : ReadOpts) (s : List Nat) (cmds : List Cmd),
    (∀ tk ∈ (.SYMBOL, bytes "step") :: toks ++ [(.RPAREN, s)], GoodTok fl tk) ∧
    (∃ st st', replay exB 10 (cmds.map .cmd) (State.init exB 10) = .ok st ∧
      readCmd exB 10 o false ((.SYMBOL, bytes "step") :: toks ++ [(.RPAREN, s)]) st = .ok ([(.RPAREN, s)], st', .next)) ∧
    ¬ ∃ c eff, Body (tokSem o) false false "step" c eff toks := by
  have hg : ∀ tk ∈ ((.SYMBOL, bytes "step") :: [(.SYMBOL, bytes "s"), (.KEYWORD, bytes ":rule"), (.SYMBOL, bytes "r"), (.KEYWORD, bytes ":xy")] ++ [(.RPAREN, bytes ")")] : List Tk),
      GoodTok ⟨true, false⟩ tk :=
    goodTok_of (s := bytes "step s :rule r :xy )") (by decide +kernel) (by decide +kernel) (by decide +kernel) (by decide +kernel)
  refine ⟨[(.SYMBOL, bytes "s"), (.KEYWORD, bytes ":rule"), (.SYMBOL, bytes "r"), (.KEYWORD, bytes ":xy")], ⟨true, false⟩, readOpts, bytes ")",
    [.declareRule { name := nm "r", params := [], premises := .each [], conc := sy "true" }], hg, ?_, ?_⟩
  · have h : ((exRun [.declareRule { name := nm "r", params := [], premises := .each [], conc := sy "true" }]).bind fun st => exec exB 10 st
        (.step { name := nm "s", rule := nm "r", premises := [] })).map (fun st => st.scope.get (nm "s")) = .ok (some (.node PROOF [tTrue])) := by decide +kernel
    obtain ⟨st, st', h1, h2, _⟩ := exStep (s := { name := nm "s", rule := nm "r", premises := [] }) h
    refine ⟨st, st', h1, (C67_command hg).2 ⟨_, _, none, _, rfl, ?_, rfl, .next _ _ _ (by exact trivial) h2⟩⟩
    exact .step _ _ _ _ _ [_] [] [_] _ (.mk _ _ (.plain _)) .absent (.mk _ _ (.plain _)) (.other _ [] _ rfl .absent (by decide) (fun _ => by decide))
  · rintro ⟨c, eff, h⟩
    generalize ht : ([(.SYMBOL, bytes "s"), (.KEYWORD, bytes ":rule"), (.SYMBOL, bytes "r"), (.KEYWORD, bytes ":xy")] : List Tk) = toks at h
    generalize hn : "step" = y at h
    cases h with
    | step x f r ps as w w' w'' v h1 h2 h3 h4 =>
      cases h1
      simp only [List.cons_append, List.nil_append, List.cons.injEq] at ht
      cases h2 with
      | absent =>
        cases h3
        simp only [List.cons_append, List.nil_append, List.cons.injEq] at ht
        obtain ⟨_, _, _, rfl⟩ := ht
        generalize hv : ([(.KEYWORD, bytes ":xy")] : List Tk) = v at h4
        cases h4 with
        | mk _ _ _ _ h5 h6 =>
          cases h5 with
          | absent =>
            cases h6 with
            | absent => cases hv
            | present _ _ _ =>
              simp only [List.nil_append, List.cons.injEq] at hv
              exact absurd hv.1 (by decide)
          | present _ _ _ =>
            simp only [List.cons_append, List.cons.injEq] at hv
            exact absurd hv.1 (by decide)
        | other _ _ _ h => cases h
      | present e _ h =>
        obtain ⟨tk, r, rfl, _, hk, _⟩ := written_head _ h
        simp only [List.cons_append, List.cons.injEq] at ht
        exact hk (by rw [← ht.2.1])
    | _ => exact absurd hn (by decide)

end Ethos.Props
