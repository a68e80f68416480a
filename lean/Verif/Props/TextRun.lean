import Verif.Props.CmdReader
import Verif.Props.History
import Verif.Props.Files
import Verif.Spec.TextRun
/-
C68: a run on texts is the run of the commands that are written in them.
-/
namespace Ethos.Props
open Ethos Kind Ethos.Spec

section
variable {b : Env} {n : Nat}

theorem eat_lt {q : List Tk} {r : List Tk} (h : eat .RPAREN q = .ok r) : ∃ s, q = (.RPAREN, s) :: r := eat_ok.1 h

/-- the body of a command that sets an option or is `exit` -/
theorem body_option {G : TokSem} {lax isRef : Bool} {x : String} {c : Cmd} {p : Name × Bool} {w : List Tk} (h : Body G lax isRef x c (some p) w) :
    x = "set-option" ∧ c = .nop := by
  cases h with
  | setOption k v _ _ h => exact ⟨rfl, rfl⟩

theorem body_exit {G : TokSem} {lax isRef : Bool} {x : String} {c : Cmd} {eff : Option (Name × Bool)} {w : List Tk} (h : Body G lax isRef x c eff w)
    (hc : c = .exit) : x = "exit" ∧ eff = none ∧ w = [] := by
  cases h with
  | exit => exact ⟨rfl, rfl, rfl⟩
  | _ => cases hc

/-- **C68**, one file: the loop over the commands of a file runs exactly as the grammar of the commands and their effects say. -/
theorem C68_file {incl : Name → Bool → Option Term → TextOpts → State → Run (TextOpts × State)} {fl : LexFlags} {isSig isRef : Bool} {eof : Run Unit}
    {k : Nat} {toks : List Tk} {o o' : TextOpts} {st st' : State} (hk : toks.length < k) (hg : ∀ tk ∈ toks, GoodTok fl tk) :
    runToks b n incl isSig isRef eof k toks o st = .ok (o', st') ↔
      FileRun b n (fun f r nf o st o' st' => incl f r nf o st = .ok (o', st')) isSig isRef (eof = .ok ()) toks o st o' st' := by
  induction k generalizing toks o st with
  | zero => exact absurd hk (Nat.not_lt_zero _)
  | succ k ih =>
  match toks with
  | [] =>
    simp only [runToks, Run.map_ok]
    constructor
    · rintro ⟨_, h, he⟩
      cases he
      exact .done _ _ h
    · intro h
      cases h with
      | done _ _ h => exact ⟨(), h, rfl⟩
  | (t, u) :: r =>
    have hgr : ∀ tk ∈ r, GoodTok fl tk := fun tk h => hg tk (by simp [h])
    simp only [runToks, Run.ite_err, Run.bind_ok]
    have hlen : ∀ {x : String} {w v : List Tk} {s : List Nat}, r = (.SYMBOL, bytes x) :: w ++ (.RPAREN, s) :: v → v.length < k ∧ ∀ tk ∈ v, GoodTok fl tk := by
      rintro x w v s rfl
      refine ⟨?_, fun tk h => hg tk (by simp [h])⟩
      simp only [List.length_cons, List.length_append] at hk
      omega
    constructor
    · rintro ⟨ht, ⟨q, st1, af⟩, hq, h⟩
      obtain rfl : t = .LPAREN := Decidable.of_not_not ht
      cases af with
      | next =>
        simp only [Run.bind_ok] at h
        obtain ⟨v, hv, h⟩ := h
        obtain ⟨s', rfl⟩ := eat_ok.1 hv
        obtain ⟨x, c, eff, w, rfl, hb, ha, ho⟩ := (C67_command hgr).1 hq
        obtain ⟨h1, h2⟩ := hlen rfl
        cases ho with
        | next _ _ _ h3 h4 => exact .cmd _ _ _ _ _ _ _ _ _ _ _ hb ha h3 h4 ((ih h1 h2).1 h)
      | finished =>
        simp only [Run.map_ok] at h
        obtain ⟨v, hv, h⟩ := h
        obtain ⟨s', rfl⟩ := eat_ok.1 hv
        obtain ⟨x, c, eff, w, rfl, hb, ha, ho⟩ := (C67_command hgr).1 hq
        cases h
        cases ho with
        | exit =>
          obtain ⟨rfl, rfl, rfl⟩ := body_exit hb rfl
          exact .exit _ _ _ _ _
      | option x v =>
        simp only [Run.bind_ok] at h
        obtain ⟨v, hv, h⟩ := h
        obtain ⟨s', rfl⟩ := eat_ok.1 hv
        obtain ⟨x, c, eff, w, rfl, hb, ha, ho⟩ := (C67_command hgr).1 hq
        obtain ⟨h1, h2⟩ := hlen rfl
        cases ho with
        | option _ _ _ _ _ h3 h4 =>
          obtain ⟨rfl, rfl⟩ := body_option hb
          cases h4
          exact .option _ _ _ _ _ _ _ _ _ _ hb ((ih h1 h2).1 h)
      | incl f r nf =>
        simp only [Run.bind_ok] at h
        obtain ⟨⟨o1, st2⟩, hi, v, hv, h⟩ := h
        obtain ⟨s', rfl⟩ := eat_ok.1 hv
        obtain ⟨x, c, eff, w, rfl, hb, ha, ho⟩ := (C67_command hgr).1 hq
        obtain ⟨h1, h2⟩ := hlen rfl
        exact .file _ _ _ _ _ _ _ _ _ _ _ _ _ _ _ _ _ hb ha ho hi ((ih h1 h2).1 h)
    · intro h
      cases h with
      | exit s s' v =>
        exact ⟨by simp, (_, _, _), (C67_command hgr).2 ⟨_, .exit, none, [], rfl, .exit, rfl, .exit _ _⟩, by simp [eat, Run.map]⟩
      | cmd s s' name c w v _ _ st1 _ _ hb ha ho he h =>
        obtain ⟨h1, h2⟩ := hlen rfl
        refine ⟨by simp, (_, _, _), (C67_command hgr).2 ⟨_, c, none, w, rfl, hb, ha, .next _ _ _ ho he⟩, ?_⟩
        exact Run.bind_ok.2 ⟨v, eat_ok.2 ⟨_, rfl⟩, (ih h1 h2).2 h⟩
      | option s s' w k x v _ _ _ _ hb h =>
        obtain ⟨h1, h2⟩ := hlen rfl
        refine ⟨by simp, (_, _, _), (C67_command hgr).2 ⟨_, .nop, _, w, rfl, hb, rfl, .option _ _ _ _ _ (by exact trivial) rfl⟩, ?_⟩
        exact Run.bind_ok.2 ⟨v, eat_ok.2 ⟨_, rfl⟩, (ih h1 h2).2 h⟩
      | file s s' name c eff w v f r nf _ _ st1 o1 st2 _ _ hb ha ho hi h =>
        obtain ⟨h1, h2⟩ := hlen rfl
        refine ⟨by simp, (_, _, _), (C67_command hgr).2 ⟨_, c, eff, w, rfl, hb, ha, ho⟩, ?_⟩
        exact Run.bind_ok.2 ⟨_, hi, Run.bind_ok.2 ⟨v, eat_ok.2 ⟨_, rfl⟩, (ih h1 h2).2 h⟩⟩

/-! ### From texts to trees -/

/-- Between two states, files were read for the first time, and any assignment of commands to files that extends the one read from their
texts satisfies `T`. -/
def AgreesWith (sg : Bool) (fs : Name → Option (List Nat)) (st st' : State) (T : (Name → Option (List Cmd)) → Prop) : Prop :=
  (∀ f ∈ st.included, f ∈ st'.included) ∧ ∃ g : Name → List Cmd, (∀ f ∈ st'.included, f ∉ st.included → WrittenIn sg fs f (g f)) ∧
    ∀ fs' : Name → Option (List Cmd), (∀ f ∈ st'.included, f ∉ st.included → fs' f = some (g f)) → (∀ f ∈ st.included, fs' f ≠ none) → T fs'

theorem AgreesWith.same {sg : Bool} {fs : Name → Option (List Nat)} {st st' : State} {T : (Name → Option (List Cmd)) → Prop} (h : st'.included = st.included)
    (hT : ∀ fs', (∀ f ∈ st.included, fs' f ≠ none) → T fs') : AgreesWith sg fs st st' T := by
  refine ⟨fun f hf => h ▸ hf, fun _ => [], ?_, fun fs' _ h => hT fs' h⟩
  intro f hf hn
  rw [h] at hf
  exact absurd hf hn

theorem AgreesWith.trans {sg : Bool} {fs : Name → Option (List Nat)} {st st1 st2 : State} {T T' T'' : (Name → Option (List Cmd)) → Prop}
    (h1 : AgreesWith sg fs st st1 T) (h2 : AgreesWith sg fs st1 st2 T') (hT : ∀ fs', T fs' → T' fs' → T'' fs') : AgreesWith sg fs st st2 T'' := by
  obtain ⟨hs1, g1, hw1, ht1⟩ := h1
  obtain ⟨hs2, g2, hw2, ht2⟩ := h2
  refine ⟨fun f hf => hs2 f (hs1 f hf), fun f => if f ∈ st1.included then g1 f else g2 f, ?_, ?_⟩
  · intro f hf hn
    dsimp only
    split
    · exact hw1 f ‹_› hn
    · exact hw2 f hf ‹_›
  · intro fs' he hn
    have e1 : ∀ f ∈ st1.included, f ∉ st.included → fs' f = some (g1 f) := by
      intro f hf hn'
      rw [he f (hs2 f hf) hn']
      simp only [if_pos hf]
    refine hT fs' (ht1 fs' e1 hn) (ht2 fs' ?_ ?_)
    · intro f hf hn'
      rw [he f hf (fun h => hn' (hs1 f h))]
      simp only [if_neg hn']
    · intro f hf
      by_cases h : f ∈ st.included
      · exact hn f h
      · rw [e1 f hf h]
        simp

theorem AgreesWith.imp {sg : Bool} {fs : Name → Option (List Nat)} {st0 st st' : State} {T T' : (Name → Option (List Cmd)) → Prop}
    (h : AgreesWith sg fs st st' T) (h0 : st.included = st0.included) (hT : ∀ fs', T fs' → T' fs') : AgreesWith sg fs st0 st' T' := by
  obtain ⟨hs, g, hw, ht⟩ := h
  rw [h0] at hs hw ht
  exact ⟨hs, g, hw, fun fs' h1 h2 => hT fs' (ht fs' h1 h2)⟩

theorem outcome_included {c : Cmd} {eff : Option (Name × Bool)} {st st' : State} {af : After} (h : Outcome b n c eff st st' af) : st'.included = st.included := by
  cases h with
  | next _ _ _ _ h => exact included_frame.exec h
  | option _ _ _ _ _ _ h => exact included_frame.exec h
  | exit => rfl
  | incl => rfl
  | reference => rfl
  | referenceNf f e _ _ _ t _ _ h => exact included_frame.parseExpr b n e h

theorem located_ordinary {c : Cmd} (cur : Name) (h : Ordinary c) : located cur c = c := by
  cases c <;> first | rfl | exact h.elim

theorem runCmds_ordinary {incl : Name → Bool → Option Term → State → Run State} {isRef : Bool} {c : Cmd} {cs : List Cmd} {st : State} (h : Ordinary c)
    (ha : c.allowed isRef = true) : runCmds b n incl isRef (c :: cs) st = (exec b n st c).bind (runCmds b n incl isRef cs) := by
  simp only [runCmds, if_pos ha]
  cases c <;> first | rfl | exact h.elim

/-- a run through the tokens of a file is a run of commands -/
theorem fileRun_cmds {sg : Bool} {fs : Name → Option (List Nat)} {d : Nat} {cur : Name}
    {incl : Name → Bool → Option Term → TextOpts → State → TextOpts → State → Prop} {isSig isRef : Bool} {whole : Prop}
    (hi : ∀ f r nf o st o' st', incl f r nf o st o' st' →
      AgreesWith sg fs st st' fun fs' => includeFile b n fs' d (includePath cur f) r nf st = .ok st')
    {toks : List Tk} {o o' : TextOpts} {st st' : State} (h : FileRun b n incl isSig isRef whole toks o st o' st') :
    ∃ cs, Commands isSig isRef cur whole cs toks ∧ AgreesWith sg fs st st' fun fs' => runCmds b n (includeFile b n fs' d) isRef cs st = .ok st' := by
  induction h with
  | done o st h => exact ⟨[], .nil h, .same rfl fun _ _ => rfl⟩
  | exit s s' v o st => exact ⟨[.exit], .exit s s' v, .same rfl fun _ _ => by cases isRef <;> rfl⟩
  | cmd s s' name c w v o st st1 o' st' hb ha ho he _ ih =>
    obtain ⟨cs, hc, hr⟩ := ih
    refine ⟨located cur c :: cs, .cons o s s' name c none w cs v hb (by rintro rfl; exact ho.elim) hc, ?_⟩
    refine hr.imp (included_frame.exec he) ?_
    intro fs' h
    rw [located_ordinary cur ho, runCmds_ordinary ho ha, he]
    exact h
  | option s s' w k x v o st o' st' hb _ ih =>
    obtain ⟨cs, hc, hr⟩ := ih
    refine ⟨located cur .nop :: cs, .cons o s s' _ _ _ w cs v hb (by simp) hc, ?_⟩
    refine hr.imp rfl ?_
    intro fs' h
    rw [located_ordinary cur (by exact trivial), runCmds_ordinary (by exact trivial) (by cases isRef <;> rfl)]
    exact h
  | file s s' name c eff w v f r nf o st st1 o1 st2 o' st' hb ha ho hinc _ ih =>
    obtain ⟨cs, hc, hr⟩ := ih
    refine ⟨located cur c :: cs, .cons o s s' name c eff w cs v hb (by rintro rfl; cases ho) hc, ?_⟩
    refine AgreesWith.trans ((hi _ _ _ _ _ _ _ hinc).imp (outcome_included ho) fun _ h => h) hr ?_
    intro fs' h1 h2
    cases ho with
    | incl f _ _ h3 =>
      obtain rfl : isRef = false := by cases isRef; rfl; cases ha
      show (if st.asmCtx ≠ [] then Run.err else _) = _
      rw [if_neg (by simp [h3]), h1]
      exact h2
    | reference f _ _ h3 h4 =>
      obtain rfl : isRef = false := by cases isRef; rfl; cases ha
      show (if st.hasRef ∨ st.asmCtx ≠ [] then Run.err else _) = _
      rw [if_neg (by simp [h3, h4])]
      simp only [parseOpt, Run.bind]
      rw [h1]
      exact h2
    | referenceNf f e _ _ _ t h3 h4 h5 =>
      obtain rfl : isRef = false := by cases isRef; rfl; cases ha
      show (if st.hasRef ∨ st.asmCtx ≠ [] then Run.err else _) = _
      rw [if_neg (by simp [h3, h4])]
      simp only [parseOpt, h5, Run.map, Run.bind]
      rw [h1]
      exact h2

/-- all tokens of a text are as the theorems about reading require -/
def GoodText (sg interactive : Bool) (text : List Nat) : Prop := ∀ fl, ∀ tk ∈ (textToks sg interactive fl text).1, GoodTok fl tk

theorem runText_cmds {sg i : Bool} {fs : Name → Option (List Nat)} {d : Nat} {cur : Name}
    {incl : Name → Bool → Option Term → TextOpts → State → Run (TextOpts × State)} {isSig isRef : Bool} {text : List Nat} (hg : GoodText sg i text)
    (hi : ∀ f r nf o st o' st', incl f r nf o st = .ok (o', st') →
      AgreesWith sg fs st st' fun fs' => includeFile b n fs' d (includePath cur f) r nf st = .ok st')
    {o o' : TextOpts} {st st' : State} (h : runText b n incl sg i isSig isRef text o st = .ok (o', st')) :
    ∃ cs, Commands isSig isRef cur ((textToks sg i (o.lexFlags isSig) text).2 = .ok ()) cs (textToks sg i (o.lexFlags isSig) text).1 ∧
      AgreesWith sg fs st st' fun fs' => runCmds b n (includeFile b n fs' d) isRef cs st = .ok st' :=
  fileRun_cmds hi ((C68_file (Nat.lt_succ_self _) (hg _)).1 h)

theorem includeText_agrees {sg : Bool} {fs : Name → Option (List Nat)} (hg : ∀ f text, fs f = some text → GoodText sg false text) :
    ∀ (d : Nat) (cur s : Name) (isSig isRef : Bool) (nf : Option Term) (o : TextOpts) (st : State) (o' : TextOpts) (st' : State),
    includeText b n sg fs d cur s isSig isRef nf o st = .ok (o', st') →
    AgreesWith sg fs st st' fun fs' => includeFile b n fs' d (includePath cur s) isRef nf st = .ok st'
  | 0, _, _, _, _, _, _, _, _, _, h => by cases h
  | d+1, cur, s, isSig, isRef, nf, o, st, o', st', h => by
    simp only [includeText] at h
    split at h
    · cases h
    · rename_i text hf
      split at h
      · rename_i hin
        cases h
        refine .same rfl fun fs' hfs => ?_
        simp only [includeFile]
        cases hx : fs' (includePath cur s) with
        | none => exact absurd hx (hfs _ hin)
        | some cs => simp only [if_pos hin]
      · rename_i hin
        rw [Run.bind_ok] at h
        obtain ⟨⟨o1, st1⟩, h1, h2⟩ := h
        have hctx : st1.asmCtx = [] ∧ (o1, st1) = (o', st') := by
          by_cases hx : st1.asmCtx = []
          · rw [if_neg (by simp [hx])] at h2
            exact ⟨hx, by cases h2; rfl⟩
          · rw [if_pos hx] at h2
            cases h2
        obtain ⟨hctx, he⟩ := hctx
        cases he
        obtain ⟨cs, hc, hs, g, hw, ht⟩ := runText_cmds (cur := includePath cur s) (d := d) (hg _ _ hf)
          (fun f r nf o st o' st' => includeText_agrees hg d (includePath cur s) f (!r) r nf o st o' st') h1
        refine ⟨fun f h => hs f (List.mem_cons_of_mem _ h), fun f => if f = includePath cur s then cs else g f, ?_, ?_⟩
        · intro f h1 h2
          dsimp only
          split
          · subst f
            exact ⟨text, isSig, isRef, o, hf, hc⟩
          · exact hw f h1 (by simp only [List.mem_cons, not_or]; exact ⟨‹_›, h2⟩)
        · intro fs' h1 h2
          have hp : fs' (includePath cur s) = some cs := by
            rw [h1 _ (hs _ (List.mem_cons_self ..)) hin]
            simp only [if_pos]
          simp only [includeFile, hp, if_neg hin]
          rw [ht fs' ?_ ?_]
          · simp [Run.bind, hctx]
          · intro f h3 h4
            simp only [List.mem_cons, not_or] at h4
            rw [h1 f h3 h4.2]
            simp only [if_neg h4.1]
          · intro f h3
            rcases List.mem_cons.1 h3 with rfl | h3
            · rw [hp]; simp
            · exact h2 f h3

theorem includeTexts_agrees {sg : Bool} {fs : Name → Option (List Nat)} (hg : ∀ f text, fs f = some text → GoodText sg false text) (d : Nat) :
    ∀ (fr : List (Name × Bool)) {o o' : TextOpts} {st st' : State}, includeTexts b n sg fs d fr o st = .ok (o', st') →
    AgreesWith sg fs st st' fun fs' => includeAll b n fs' d (fr.map fun p => (includePath [] p.1, p.2)) st = .ok st'
  | [], o, o', st, st', h => by
    cases h
    exact .same rfl fun _ _ => rfl
  | (f, r) :: fr, o, o', st, st', h => by
    simp only [includeTexts, Run.bind_ok] at h
    obtain ⟨⟨o1, st1⟩, h1, h2⟩ := h
    refine (includeText_agrees hg d _ _ _ _ _ _ _ _ _ h1).trans (includeTexts_agrees hg d fr h2) ?_
    intro fs' h3 h4
    simp only [List.map_cons, includeAll]
    rw [h3]
    exact h4

/-- the input of `main`, as commands -/
def InputIs (sg : Bool) (i : TextInput) (i' : Input) : Prop :=
  match i with
  | .file f => i' = .file (includePath [] f)
  | .stdin s => ∃ cs, i' = .stdin cs ∧ ∃ o : TextOpts, Commands false false [] ((textToks sg true (o.lexFlags false) s).2 = .ok ()) cs (textToks sg true (o.lexFlags false) s).1

/-- **C68**: a run on texts that succeeds is the run of the commands that are written in the texts, with the same final state and the same
response; every file that was read is written as the commands say. -/
theorem C68_run {sg : Bool} {fs : Name → Option (List Nat)} (hg : ∀ f text, fs f = some text → GoodText sg false text) {d : Nat} {fr : List (Name × Bool)}
    {i : TextInput} (hi : ∀ s, i = .stdin s → GoodText sg true s) {o : TextOpts} {n0 : Nat} {st' : State} {r : Response}
    (h : mainText b n sg fs d fr i o (State.init b n0) = .ok (st', r)) :
    ∃ fs' i', InputIs sg i i' ∧ (∀ f cs, fs' f = some cs → f ∈ st'.included ∧ WrittenIn sg fs f cs) ∧
      main b n fs' d (fr.map fun p => (includePath [] p.1, p.2)) i' (State.init b n0) = .ok (st', r) := by
  simp only [mainText, Run.bind_ok, Run.map_ok] at h
  obtain ⟨⟨o1, st1⟩, h1, ⟨o2, st2⟩, h2, h3⟩ := h
  obtain ⟨rfl, rfl⟩ : st2 = st' ∧ st2.response = r := by cases h3; exact ⟨rfl, rfl⟩
  clear h3
  have ha := includeTexts_agrees hg d fr h1
  have hfin : ∀ i', AgreesWith sg fs st1 st2 (fun fs' => runInput b n fs' d i' st1 = .ok st2) → ∃ fs', (∀ f cs, fs' f = some cs → f ∈ st2.included ∧ WrittenIn sg fs f cs) ∧
      main b n fs' d (fr.map fun p => (includePath [] p.1, p.2)) i' (State.init b n0) = .ok (st2, st2.response) := by
    intro i' hi'
    obtain ⟨hs, g, hw, ht⟩ := ha.trans hi' (T'' := fun fs' => main b n fs' d (fr.map fun p => (includePath [] p.1, p.2)) i' (State.init b n0) = .ok (st2, st2.response))
      fun fs' h3 h4 => by
        simp only [main, Run.bind_ok, Run.map_ok]
        exact ⟨_, h3, _, h4, rfl⟩
    refine ⟨fun f => if f ∈ st2.included then some (g f) else none, ?_, ht _ ?_ ?_⟩
    · intro f cs h
      dsimp only at h
      split at h
      · cases h
        exact ⟨‹_›, hw f ‹_› (by simp [State.init])⟩
      · cases h
    · intro f hf _
      simp only [if_pos hf]
    · intro f hf
      simp [State.init] at hf
  cases i with
  | file f =>
    obtain ⟨fs', h4, h5⟩ := hfin (.file (includePath [] f)) (includeText_agrees hg d _ _ _ _ _ _ _ _ _ h2)
    exact ⟨fs', _, rfl, h4, h5⟩
  | stdin s =>
    obtain ⟨cs, hc, hr⟩ := runText_cmds (cur := []) (d := d) (hi s rfl) (fun f r nf o st o' st' => includeText_agrees hg d [] f (!r) r nf o st o' st') h2
    obtain ⟨fs', h4, h5⟩ := hfin (.stdin cs) hr
    exact ⟨fs', _, ⟨cs, rfl, o1, hc⟩, h4, h5⟩

/-! ### Exactly these runs -/

theorem fileRun_congr {incl incl' : Name → Bool → Option Term → TextOpts → State → TextOpts → State → Prop} {isSig isRef : Bool} {whole : Prop}
    (hi : ∀ f r nf o st o' st', incl f r nf o st o' st' → incl' f r nf o st o' st') {toks : List Tk} {o o' : TextOpts} {st st' : State}
    (h : FileRun b n incl isSig isRef whole toks o st o' st') : FileRun b n incl' isSig isRef whole toks o st o' st' := by
  induction h with
  | done o st h => exact .done o st h
  | exit s s' v o st => exact .exit s s' v o st
  | cmd s s' name c w v o st st1 o' st' hb ha ho he _ ih => exact .cmd s s' name c w v o st st1 o' st' hb ha ho he ih
  | option s s' w k x v o st o' st' hb _ ih => exact .option s s' w k x v o st o' st' hb ih
  | file s s' name c eff w v f r nf o st st1 o1 st2 o' st' hb ha ho hinc _ ih =>
    exact .file s s' name c eff w v f r nf o st st1 o1 st2 o' st' hb ha ho (hi _ _ _ _ _ _ _ hinc) ih

/-- C68: a file is read exactly as the relation says -/
theorem C68_include {sg : Bool} {fs : Name → Option (List Nat)} (hg : ∀ f text, fs f = some text → GoodText sg false text) :
    ∀ {d : Nat} {cur s : Name} {isSig isRef : Bool} {nf : Option Term} {o o' : TextOpts} {st st' : State},
    includeText b n sg fs d cur s isSig isRef nf o st = .ok (o', st') ↔ Included b n sg fs d cur s isSig isRef nf o st o' st'
  | 0, cur, s, isSig, isRef, nf, o, o', st, st' => by simp [includeText, Included]
  | d+1, cur, s, isSig, isRef, nf, o, o', st, st' => by
    simp only [includeText, Included]
    have hi : ∀ f r nf o st o' st', includeText b n sg fs d (includePath cur s) f (!r) r nf o st = .ok (o', st') ↔
        Included b n sg fs d (includePath cur s) f (!r) r nf o st o' st' := fun _ _ _ _ _ _ _ => C68_include hg
    cases hf : fs (includePath cur s) with
    | none => simp
    | some text =>
      simp only [Option.some.injEq, exists_eq_left']
      by_cases hin : includePath cur s ∈ st.included
      · rw [if_pos hin]
        simp only [hin, true_and, not_true, false_and, or_false]
        constructor
        · intro h
          cases h
          exact ⟨rfl, rfl⟩
        · rintro ⟨rfl, rfl⟩
          rfl
      · rw [if_neg hin]
        simp only [hin, false_and, not_false_eq_true, true_and, false_or, Run.bind_ok]
        have hr := C68_file (b := b) (n := n) (incl := fun s' r => includeText b n sg fs d (includePath cur s) s' (!r) r) (isSig := isSig) (isRef := isRef)
          (eof := (textToks sg false (o.lexFlags isSig) text).2) (o := o) (o' := o') (st := { st with included := includePath cur s :: st.included, hasRef := isRef, refNf := nf })
          (st' := st') (Nat.lt_succ_self _) (hg _ _ hf (o.lexFlags isSig))
        constructor
        · rintro ⟨⟨o1, st1⟩, h1, h2⟩
          have hctx : st1.asmCtx = [] ∧ o1 = o' ∧ st1 = st' := by
            by_cases hx : st1.asmCtx = []
            · rw [if_neg (by simp [hx])] at h2
              cases h2
              exact ⟨hx, rfl, rfl⟩
            · rw [if_pos hx] at h2
              cases h2
          obtain ⟨hctx, rfl, rfl⟩ := hctx
          exact ⟨hctx, fileRun_congr (fun _ _ _ _ _ _ _ h => (hi _ _ _ _ _ _ _).1 h) (hr.1 h1)⟩
        · rintro ⟨hctx, h⟩
          refine ⟨(o', st'), hr.2 (fileRun_congr (fun _ _ _ _ _ _ _ h => (hi _ _ _ _ _ _ _).2 h) h), ?_⟩
          rw [if_neg (by simp [hctx])]

theorem isSignatureName_iff {f : Name} : isSignatureName f = true ↔ ∃ x, f = x ++ bytes ".eo" := by
  simp only [isSignatureName, Bool.and_eq_true, decide_eq_true_eq]
  constructor
  · rintro ⟨_, h⟩
    exact ⟨f.take (f.length - 3), by rw [← h, List.take_append_drop]⟩
  · rintro ⟨x, rfl⟩
    have e : (bytes ".eo").length = 3 := by decide
    rw [List.length_append, e]
    refine ⟨by omega, ?_⟩
    rw [Nat.add_sub_cancel, List.drop_left]

/-- **C68**: a run on texts succeeds exactly if the given files and then the input can be read, each command as the grammar says and with the
effect of the command, and the response depends on the rules that were used. -/
theorem C68_main {sg : Bool} {fs : Name → Option (List Nat)} (hg : ∀ f text, fs f = some text → GoodText sg false text) {d : Nat} {fr : List (Name × Bool)}
    {i : TextInput} (hi : ∀ s, i = .stdin s → GoodText sg true s) {o : TextOpts} {st st' : State} {r : Response} :
    mainText b n sg fs d fr i o st = .ok (st', r) ↔ ∃ o1 st1 o2, IncludedAll (fun f ref => Included b n sg fs d [] f (!ref) ref none) fr o st o1 st1 ∧
      InputRun b n sg fs d i o1 st1 o2 st' ∧ r = st'.response := by
  have h1 : ∀ (fr : List (Name × Bool)) (o o' : TextOpts) (st st' : State), includeTexts b n sg fs d fr o st = .ok (o', st') ↔
      IncludedAll (fun f ref => Included b n sg fs d [] f (!ref) ref none) fr o st o' st' := by
    intro fr
    induction fr with
    | nil =>
      intro o o' st st'
      simp only [includeTexts]
      constructor
      · intro h; cases h; exact .nil _ _
      · intro h; cases h; rfl
    | cons p fr ih =>
      obtain ⟨f, ref⟩ := p
      intro o o' st st'
      simp only [includeTexts, Run.bind_ok]
      constructor
      · rintro ⟨⟨o1, st1⟩, h1, h2⟩
        exact .cons _ _ _ _ _ _ _ _ _ ((C68_include hg).1 h1) ((ih _ _ _ _).1 h2)
      · intro h
        cases h with
        | cons _ _ _ _ _ o1 st1 _ _ h1 h2 => exact ⟨(o1, st1), (C68_include hg).2 h1, (ih _ _ _ _).2 h2⟩
  have h2 : ∀ (o o' : TextOpts) (st st' : State), runTextInput b n sg fs d i o st = .ok (o', st') ↔ InputRun b n sg fs d i o st o' st' := by
    intro o o' st st'
    cases i with
    | file f =>
      simp only [runTextInput, InputRun]
      constructor
      · intro h
        exact ⟨_, isSignatureName_iff, (C68_include hg).1 h⟩
      · rintro ⟨isSig, he, h⟩
        have : isSig = isSignatureName f := Bool.eq_iff_iff.2 (he.trans isSignatureName_iff.symm)
        exact (C68_include hg).2 (this ▸ h)
    | stdin s =>
      refine (C68_file (Nat.lt_succ_self _) (hi s rfl _)).trans ⟨?_, ?_⟩
      · exact fileRun_congr fun _ _ _ _ _ _ _ h => (C68_include hg).1 h
      · exact fileRun_congr fun _ _ _ _ _ _ _ h => (C68_include hg).2 h
  simp only [mainText, Run.bind_ok, Run.map_ok]
  constructor
  · rintro ⟨⟨o1, st1⟩, h3, ⟨o2, st2⟩, h4, h5⟩
    cases h5
    exact ⟨o1, st1, o2, (h1 _ _ _ _ _).1 h3, (h2 _ _ _ _).1 h4, rfl⟩
  · rintro ⟨o1, st1, o2, h3, h4, rfl⟩
    exact ⟨(o1, st1), (h1 _ _ _ _ _).2 h3, (o2, st'), (h2 _ _ _ _).2 h4, rfl⟩

/-! ### Consequences -/

/-- C39 for texts: the response is `incomplete` exactly if one of the steps written in the texts uses a rule that is declared there with
`:sorry`. -/
theorem C68_verdict {sg : Bool} {fs : Name → Option (List Nat)} (hg : ∀ f text, fs f = some text → GoodText sg false text) {d : Nat} {fr : List (Name × Bool)}
    {i : TextInput} (hi : ∀ s, i = .stdin s → GoodText sg true s) {o : TextOpts} {n0 : Nat} {st' : State} {r : Response}
    (h : mainText b n sg fs d fr i o (State.init b n0) = .ok (st', r)) :
    ∃ fs' i' evs inc, InputIs sg i i' ∧ (∀ f cs, fs' f = some cs → WrittenIn sg fs f cs) ∧
      Spec.Reads fs' false [] (mainCmds (fr.map fun p => (includePath [] p.1, p.2)) i') evs inc ∧ replay b n evs (State.init b n0) = .ok st' ∧
      (r = .incomplete ↔ ∃ s R, .cmd (.step s) ∈ evs ∧ .cmd (.declareRule R) ∈ evs ∧ R.name = s.rule ∧ R.sry = true) ∧
      (r = .correct ↔ ¬ ∃ s R, .cmd (.step s) ∈ evs ∧ .cmd (.declareRule R) ∈ evs ∧ R.name = s.rule ∧ R.sry = true) := by
  obtain ⟨fs', i', h1, h2, h3⟩ := C68_run hg hi h
  obtain ⟨evs, inc, h4, _, h5⟩ := C44_once h3
  exact ⟨fs', i', evs, inc, h1, fun f cs h => (h2 f cs h).2, h4, h5, C39_verdict h3 h4⟩

/-- C61 for texts: files are read outside of assumptions and close the scopes that they open. -/
theorem C68_nesting {sg : Bool} {fs : Name → Option (List Nat)} (hg : ∀ f text, fs f = some text → GoodText sg false text) {d : Nat} {fr : List (Name × Bool)}
    {i : TextInput} (hi : ∀ s, i = .stdin s → GoodText sg true s) {o : TextOpts} {n0 : Nat} {st' : State} {r : Response}
    (h : mainText b n sg fs d fr i o (State.init b n0) = .ok (st', r)) :
    ∃ fs' i', InputIs sg i i' ∧ (∀ f cs, fs' f = some cs → WrittenIn sg fs f cs) ∧
      Whole fs' (fr.map fun p => (includePath [] p.1, p.2)) i' ⟨st'.included, st'.asmCtx.length, st'.hasRef⟩ := by
  obtain ⟨fs', i', h1, h2, h3⟩ := C68_run hg hi h
  exact ⟨fs', i', h1, fun f cs h => (h2 f cs h).2, C61_files h3⟩

/-! ### Examples -/

theorem stream_ok {fl : LexFlags} {f : Nat} : ∀ {k : Nat} {l : Lex} {ts : List Tk}, Lex.stream fl f k l = (ts, .ok ()) ↔ Lex.all fl f k l = .ok ts
  | 0, l, ts => by simp [Lex.stream, Lex.all]
  | k+1, l, ts => by
    simp only [Lex.stream, Lex.all]
    cases hl : Lex.nextToken fl f l with
    | ok p =>
      simp only [Run.bind]
      by_cases hp : p.1 = .EOF_TOK
      · simp [hp, eq_comm]
      · simp only [hp, if_false, Prod.mk.injEq, Run.map_ok]
        constructor
        · rintro ⟨h1, h2⟩
          exact ⟨_, (stream_ok (k := k)).1 (Prod.ext rfl h2), h1⟩
        · rintro ⟨ts', h1, h2⟩
          rw [(stream_ok (k := k)).2 h1]
          exact ⟨h2, rfl⟩
    | err => simp [Run.bind]
    | ub => simp [Run.bind]
    | fuel => simp [Run.bind]

/-- the tokens of a text that is read to its end are those of C58 -/
theorem textToks_ok {sg i : Bool} {fl : LexFlags} {s : List Nat} {ts : List Tk} :
    textToks sg i fl s = (ts, .ok ()) ↔ lexInput fl (.init sg i 32768 s) = .ok ts := by
  unfold textToks lexInput
  simp only [Reader.init, List.length_nil, Nat.zero_add]
  exact stream_ok

/-- texts of ASCII characters whose tokens are not degenerate are good -/
theorem goodText_of {i : Bool} {s : List Nat} (hr : ∀ b ∈ s, 0 < b ∧ b < 128) (h : ∀ l t, (textToks true i ⟨l, t⟩ s).2 = .ok () ∧
    ∀ p ∈ (textToks true i ⟨l, t⟩ s).1, ¬ ShortKeyword p ∧ ¬ Unterminated p ∧ 0 ∉ p.2 ∧ p.2.length < 2 ^ 30 ∧ ∀ c ∈ p.2, 32 ≤ c) : GoodText true i s := by
  rintro ⟨l, t⟩ tk htk
  obtain ⟨h1, h2⟩ := h l t
  have hx := C58_read_partial (by decide) (fun b hb => ⟨by have := hr b hb; omega, fun _ _ => by have := hr b hb; omega⟩) (textToks_ok.1 (Prod.ext rfl h1))
    fun p hp => ⟨(h2 p hp).1, (h2 p hp).2.1⟩
  obtain ⟨_, _, h3, h4, h5⟩ := h2 tk htk
  exact ⟨lexes_lexeme hx tk htk, h3, h4, fun _ => h5⟩

/-- a signature -/
def sigText : List Nat := bytes "; a rule
(declare-const not (-> Bool Bool))
(declare-rule contra ((F Bool)) :premises (F (not F)) :conclusion false)
"
/-- a proof that uses it, with a command after `exit` that could not be read -/
def proofText : List Nat := bytes "(include \"./sig.eo\")
(declare-const p Bool)
(assume @a1 p)
(assume @a2 (not p))
(step @p1 false :rule contra :premises (@a1 @a2))
(exit)
(nonsense"
def proofFiles : Name → Option (List Nat) := fun f =>
  if f = bytes "d/sig.eo" then some sigText else if f = bytes "d/p.smt3" then some proofText else none

theorem sigText_good : GoodText true false sigText :=
  goodText_of (by decide +kernel) (fun l t => by cases l <;> cases t <;> decide +kernel)
theorem proofText_good : GoodText true false proofText :=
  goodText_of (by decide +kernel) (fun l t => by cases l <;> cases t <;> decide +kernel)
theorem proofFiles_good (f : Name) (text : List Nat) (h : proofFiles f = some text) : GoodText true false text := by
  unfold proofFiles at h
  by_cases h1 : f = bytes "d/sig.eo"
  · rw [if_pos h1] at h
    exact Option.some.inj h ▸ sigText_good
  · rw [if_neg h1] at h
    by_cases h2 : f = bytes "d/p.smt3"
    · rw [if_pos h2] at h
      exact Option.some.inj h ▸ proofText_good
    · rw [if_neg h2] at h
      cases h

/-- C68: the proof is accepted -/
theorem proof_accepted : (mainText exB 10 true proofFiles 3 [] (.file (bytes "d/p.smt3")) {} (State.init exB 10)).map
    (fun p => (p.1.included, p.1.asmCtx, p.1.scope.get (bytes "@p1"), p.2)) =
    .ok ([bytes "d/sig.eo", bytes "d/p.smt3"], [], some (.node PROOF [tFalse]), .correct) := by decide +kernel

/-- C68: the hypotheses are met, and there is such a run -/
example : ∃ st' r, mainText exB 10 true proofFiles 3 [] (.file (bytes "d/p.smt3")) {} (State.init exB 10) = .ok (st', r) ∧
    ∃ fs' i', InputIs true (.file (bytes "d/p.smt3")) i' ∧ (∀ f cs, fs' f = some cs → f ∈ st'.included ∧ WrittenIn true proofFiles f cs) ∧
      main exB 10 fs' 3 [] i' (State.init exB 10) = .ok (st', r) := by
  obtain ⟨p, h, _⟩ := Run.map_ok.1 proof_accepted
  exact ⟨p.1, p.2, h, C68_run (fr := []) proofFiles_good (fun _ h => by cases h) h⟩

/-- C68: without `exit` the unknown command is an error -/
example : (mainText exB 10 true (fun f => if f = bytes "p.smt3" then some (bytes "(declare-const p Bool)\n(nonsense") else none) 3 [] (.file (bytes "p.smt3")) {}
    (State.init exB 10)).map (fun _ => ()) = .err := by decide +kernel
/-- C68: options change how files are read: with `parse-let` off, `let` is a symbol -/
example : (mainText exB 10 true (fun _ => none) 3 [] (.stdin (bytes "(define x () (let ((y true)) y))")) { parseLet := false } (State.init exB 10)).map (fun p => p.2) =
    .err := by decide +kernel
example : (textToks true true (({} : TextOpts).lexFlags false) (bytes "(let")).1 = [(.LPAREN, bytes "("), (.LET, bytes "let")] ∧
    (textToks true true (({ parseLet := false } : TextOpts).lexFlags false) (bytes "(let")).1 = [(.LPAREN, bytes "("), (.SYMBOL, bytes "let")] := by decide +kernel

/-- **C68**, options: a command that sets an option gives it the value, and no other option is changed. -/
theorem C68_option (o : TextOpts) (k : Name) (v : Bool) (x : Name) (w : Bool) :
    Setting (o.set k v) x w ↔ (x = k ∧ w = v ∧ ∃ u, Setting o x u) ∨ (x ≠ k ∧ Setting o x w) := by
  have known : ∀ {o : TextOpts} {x w}, Setting o x w ↔ (x = bytes "parse-let" ∧ w = o.parseLet) ∨ (x = bytes "normalize-num" ∧ w = o.normNum) ∨
      (x = bytes "normalize-dec" ∧ w = o.normDec) ∨ (x = bytes "normalize-hex" ∧ w = o.normHex) := by
    intro o x w
    constructor
    · intro h
      cases h
      · exact .inl ⟨rfl, rfl⟩
      · exact .inr (.inl ⟨rfl, rfl⟩)
      · exact .inr (.inr (.inl ⟨rfl, rfl⟩))
      · exact .inr (.inr (.inr ⟨rfl, rfl⟩))
    · rintro (⟨rfl, rfl⟩ | ⟨rfl, rfl⟩ | ⟨rfl, rfl⟩ | ⟨rfl, rfl⟩)
      · exact .parseLet
      · exact .normNum
      · exact .normDec
      · exact .normHex
  have d1 : bytes "parse-let" ≠ bytes "normalize-num" := by decide +kernel
  have d2 : bytes "parse-let" ≠ bytes "normalize-dec" := by decide +kernel
  have d3 : bytes "parse-let" ≠ bytes "normalize-hex" := by decide +kernel
  have d4 : bytes "normalize-num" ≠ bytes "normalize-dec" := by decide +kernel
  have d5 : bytes "normalize-num" ≠ bytes "normalize-hex" := by decide +kernel
  have d6 : bytes "normalize-dec" ≠ bytes "normalize-hex" := by decide +kernel
  simp only [known, TextOpts.set]
  generalize bytes "parse-let" = a1 at *
  generalize bytes "normalize-num" = a2 at *
  generalize bytes "normalize-dec" = a3 at *
  generalize bytes "normalize-hex" = a4 at *
  by_cases h1 : k = a1
  · subst h1
    rw [if_pos rfl]
    grind
  by_cases h3 : k = a3
  · subst h3
    rw [if_neg h1, if_pos rfl]
    grind
  by_cases h2 : k = a2
  · subst h2
    rw [if_neg h1, if_neg h3, if_pos rfl]
    grind
  by_cases h4 : k = a4
  · subst h4
    rw [if_neg h1, if_neg h3, if_neg h2, if_pos rfl]
    grind
  rw [if_neg h1, if_neg h3, if_neg h2, if_neg h4]
  grind

/-- **C68**, options: `let` is a keyword in files that are not signatures, while the option `parse-let` is on, and `Type` is one in signatures. -/
theorem C68_keywords (o : TextOpts) (isSig : Bool) :
    ((o.lexFlags isSig).lexLet = true ↔ isSig = false ∧ Setting o (bytes "parse-let") true) ∧ ((o.lexFlags isSig).lexType = true ↔ isSig = true) := by
  have h : Setting o (bytes "parse-let") true ↔ o.parseLet = true := by
    constructor
    · intro h
      generalize hx : bytes "parse-let" = x at h
      generalize hb : true = y at h
      cases h
      · rfl
      all_goals exact absurd hx (by decide +kernel)
    · intro h
      have := Setting.parseLet (o := o)
      rwa [h] at this
  rw [h]
  obtain ⟨a, b, c, d⟩ := o
  cases isSig <;> cases a <;> simp [TextOpts.lexFlags]

/-- C68: switching an option off and on -/
example : Setting ((({} : TextOpts).set (bytes "normalize-num") true).set (bytes "parse-let") false) (bytes "normalize-num") true :=
  (C68_option _ _ _ _ _).2 (.inr ⟨by decide +kernel, (C68_option _ _ _ _ _).2 (.inl ⟨rfl, rfl, _, .normNum⟩)⟩)
example : Setting (((({} : TextOpts).set (bytes "parse-let") false)).set (bytes "parse-let") true) (bytes "parse-let") true :=
  (C68_option _ _ _ _ _).2 (.inl ⟨rfl, rfl, _, .parseLet⟩)
example : ¬((({} : TextOpts).set (bytes "parse-let") false).lexFlags false).lexLet = true := by decide +kernel

end
end Ethos.Props
