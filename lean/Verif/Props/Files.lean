import Verif.Lemmas.Command
import Verif.Spec.Command
import Verif.Lemmas.CmdExample
/-
C44: every file is processed at most once.  C39: the verdict.
-/
namespace Ethos.Props
open Ethos Kind Spec

/-! ### C44 -/

theorem Reads.mono {fs : Name → Option (List Cmd)} {isRef : Bool} {inc inc' : List Name} {cs : List Cmd} {evs : List Event}
    (h : Reads fs isRef inc cs evs inc') : inc' = (files evs).reverse ++ inc := by
  have happ : ∀ a b : List Event, files (a ++ b) = files a ++ files b := by
    intro a b
    induction a with
    | nil => rfl
    | cons e a ih => cases e <;> simp [files, ih]
  induction h with
  | nil => rfl
  | exit => rfl
  | seen _ _ _ _ _ _ _ _ _ _ _ _ _ ih => exact ih
  | file _ _ _ _ _ _ _ _ _ _ _ _ _ _ _ _ _ _ ih1 ih2 => rw [ih2, ih1]; simp [files, happ]
  | cmd _ _ _ _ _ _ _ _ _ _ ih => exact ih

theorem Reads.nodup {fs : Name → Option (List Cmd)} {isRef : Bool} {inc inc' : List Name} {cs : List Cmd} {evs : List Event}
    (h : Reads fs isRef inc cs evs inc') : inc.Nodup → inc'.Nodup := by
  induction h with
  | nil => exact id
  | exit => exact id
  | seen _ _ _ _ _ _ _ _ _ _ _ _ _ ih => exact ih
  | file _ _ _ _ _ _ _ _ _ _ _ _ _ _ hf _ _ _ ih1 ih2 => exact fun h => ih2 (ih1 (List.nodup_cons.2 ⟨hf, h⟩))
  | cmd _ _ _ _ _ _ _ _ _ _ ih => exact ih

/-- the events of a run are determined by the files -/
theorem Reads.det {fs : Name → Option (List Cmd)} {isRef : Bool} {inc inc1 : List Name} {cs : List Cmd} {e1 : List Event}
    (h : Reads fs isRef inc cs e1 inc1) : ∀ {e2 inc2}, Reads fs isRef inc cs e2 inc2 → e1 = e2 ∧ inc1 = inc2 := by
  induction h with
  | nil => intro e2 inc2 h; cases h; exact ⟨rfl, rfl⟩
  | exit =>
    intro e2 inc2 h
    cases h with
    | exit => exact ⟨rfl, rfl⟩
    | seen _ _ _ _ _ _ _ _ _ h => cases h
    | file _ _ _ _ _ _ _ _ _ _ _ _ h => cases h
    | cmd _ _ _ _ _ _ _ h => exact absurd rfl h
  | seen _ _ c _ f r nf _ _ hc _ hf _ ih =>
    intro e2 inc2 h
    cases h with
    | exit => cases hc
    | seen _ _ _ _ f' r' nf' _ _ h1 _ _ h2 =>
      rw [hc] at h1; cases h1
      obtain ⟨rfl, rfl⟩ := ih h2
      exact ⟨rfl, rfl⟩
    | file _ _ _ _ _ _ _ _ _ _ _ _ h1 _ h2 => rw [hc] at h1; cases h1; exact absurd hf h2
    | cmd _ _ _ _ _ _ h1 => rw [hc] at h1; cases h1
  | file _ _ c _ f r nf cmds _ _ _ _ hc _ hf hfs _ _ ih1 ih2 =>
    intro e2 inc2 h
    cases h with
    | exit => cases hc
    | seen _ _ _ _ f' r' nf' _ _ h1 _ h2 => rw [hc] at h1; cases h1; exact absurd h2 hf
    | file _ _ _ _ _ _ _ _ _ _ _ _ h1 _ _ h2 h3 h4 =>
      rw [hc] at h1; cases h1
      rw [hfs] at h2; cases h2
      obtain ⟨rfl, rfl⟩ := ih1 h3
      obtain ⟨rfl, rfl⟩ := ih2 h4
      exact ⟨rfl, rfl⟩
    | cmd _ _ _ _ _ _ h1 => rw [hc] at h1; cases h1
  | cmd _ _ c _ _ _ hc hx _ _ ih =>
    intro e2 inc2 h
    cases h with
    | exit => exact absurd rfl hx
    | seen _ _ _ _ f' r' nf' _ _ h1 => rw [hc] at h1; cases h1
    | file _ _ _ _ _ _ _ _ _ _ _ _ h1 => rw [hc] at h1; cases h1
    | cmd _ _ _ _ _ _ _ _ _ h2 =>
      obtain ⟨rfl, rfl⟩ := ih h2
      exact ⟨rfl, rfl⟩

theorem replay_append (b : Env) (n : Nat) (e1 : List Event) : ∀ (e2 : List Event) (st : State),
    replay b n (e1 ++ e2) st = (replay b n e1 st).bind (replay b n e2) := by
  induction e1 with
  | nil => exact fun _ _ => rfl
  | cons e e1 ih =>
    intro e2 st
    simp only [List.cons_append, replay]
    cases replayEvent b n st e <;> simp [Run.bind, ih]

/-- nothing but entering a file changes the list of files -/
theorem included_frame : FullFrame fun st st' => st'.included = st.included where
  refl _ := rfl
  trans h1 h2 := h2.trans h1
  bind _ _ _ := rfl
  push _ := rfl
  pop h := by
    simp only [State.pop, Run.map_ok] at h
    obtain ⟨_, _, rfl⟩ := h; rfl
  sym _ _ _ _ := rfl
  mark _ _ _ _ := rfl
  lit _ := rfl
  refAssert _ _ := rfl
  asm _ _ _ := rfl
  reset _ := rfl
  used _ _ := rfl
  rule _ := rfl
  sry _ _ := rfl

/-- a run that includes files by `incl` is the execution of events -/
def InclOk (b : Env) (n : Nat) (fs : Name → Option (List Cmd)) (incl : Name → Bool → Option Term → State → Run State) : Prop :=
  ∀ f isRef nf st st', incl f isRef nf st = .ok st' →
    (f ∈ st.included ∧ st' = st) ∨ (f ∉ st.included ∧ ∃ cmds evs inc', fs f = some cmds ∧ Reads fs isRef (f :: st.included) cmds evs inc' ∧
      replay b n evs { st with included := f :: st.included, hasRef := isRef, refNf := nf } = .ok st' ∧ st'.included = inc' ∧ st'.asmCtx = [])

theorem runCmds_ok {b : Env} {n : Nat} {fs : Name → Option (List Cmd)} {incl : Name → Bool → Option Term → State → Run State}
    (hi : InclOk b n fs incl) {isRef : Bool} : ∀ (cs : List Cmd) {st st' : State}, runCmds b n incl isRef cs st = .ok st' →
    ∃ evs, Reads fs isRef st.included cs evs st'.included ∧ replay b n evs st = .ok st'
  | [], st, st', h => by
    simp only [runCmds] at h; cases h
    exact ⟨[], .nil _ _, rfl⟩
  | c :: cs, st, st', h => by
    simp only [runCmds, Run.ite_err'] at h
    obtain ⟨ha, h⟩ := h
    -- a file is included in the state `s0`
    have hfile : ∀ f r nf s0 (t : Option Term), fileOf c = some (f, r, nf) → parseOpt b n nf st = .ok (s0, t) →
        (incl f r t s0).bind (runCmds b n incl isRef cs) = .ok st' →
        ∃ evs, Reads fs isRef st.included (c :: cs) evs st'.included ∧ replay b n evs st = .ok st' := by
      intro f r nf s0 t hf hp h
      simp only [Run.bind_ok] at h
      obtain ⟨s1, h1, h2⟩ := h
      have hinc : s0.included = st.included := included_frame.parseOpt hp
      obtain ⟨e2, hr2, hp2⟩ := runCmds_ok hi cs h2
      rcases hi f r t s0 s1 h1 with ⟨hm, rfl⟩ | ⟨hm, cmds, e1, inc1, hfs, hr1, hp1, rfl, _⟩
      · rw [hinc] at hm hr2
        refine ⟨_, .seen _ _ _ _ _ _ _ _ _ hf ha hm hr2, ?_⟩
        simp only [replay, replayEvent, hp, Run.map, Run.bind]
        exact hp2
      · rw [hinc] at hm hr1
        refine ⟨_, .file _ _ _ _ _ _ _ _ _ _ _ _ hf ha hm hfs hr1 hr2, ?_⟩
        simp only [replay, replayEvent, hp, Run.map, Run.bind]
        rw [replay_append, hp1]
        exact hp2
    by_cases hx : c = .exit
    · subst hx
      simp only at h; cases h
      exact ⟨[], .exit _ _ _, rfl⟩
    · cases hc : fileOf c with
      | none =>
        have h' : (exec b n st c).bind (runCmds b n incl isRef cs) = .ok st' := by
          cases c <;> first | exact absurd rfl hx | exact h | cases hc
        simp only [Run.bind_ok] at h'
        obtain ⟨s1, h1, h2⟩ := h'
        obtain ⟨e2, hr2, hp2⟩ := runCmds_ok hi cs h2
        rw [included_frame.exec h1] at hr2
        refine ⟨_, .cmd _ _ _ _ _ _ hc hx ha hr2, ?_⟩
        simp only [replay, replayEvent, h1, Run.bind]
        exact hp2
      | some p =>
        obtain ⟨f, r, nf⟩ := p
        cases c with
        | incl g =>
          simp only [fileOf] at hc; cases hc
          simp only [Run.ite_err] at h
          exact hfile f false none st none rfl rfl h.2
        | reference g nf' =>
          simp only [fileOf] at hc; cases hc
          simp only [Run.ite_err, Run.bind_ok (f := fun p => _)] at h
          obtain ⟨_, ⟨s0, t⟩, h1, h2⟩ := h
          exact hfile f true nf s0 t rfl h1 (Run.bind_ok.2 h2)
        | _ => cases hc

theorem includeFile_ok (b : Env) (n : Nat) (fs : Name → Option (List Cmd)) : ∀ d, InclOk b n fs (includeFile b n fs d)
  | 0 => by intro f isRef nf st st' h; simp [includeFile] at h
  | d+1 => by
    intro f isRef nf st st' h
    simp only [includeFile] at h
    split at h
    · cases h
    · rename_i cmds hfs
      split at h
      · rename_i hm; cases h; exact .inl ⟨hm, rfl⟩
      · rename_i hm
        simp only [Run.bind_ok, Run.ite_err] at h
        obtain ⟨s1, h1, h2, h3⟩ := h
        cases h3
        obtain ⟨evs, hr, hp⟩ := runCmds_ok (includeFile_ok b n fs d) cmds h1
        exact .inr ⟨hm, cmds, evs, _, hfs, hr, hp, rfl, by simpa using h2⟩

theorem incl_reads {b : Env} {n : Nat} {fs : Name → Option (List Cmd)} {d : Nat} {f : Name} {isRef : Bool} {st st1 st' : State} {cs : List Cmd}
    {evs : List Event} (h : includeFile b n fs d f isRef none st = .ok st1) (hr : Reads fs false st1.included cs evs st'.included)
    (hp : replay b n evs st1 = .ok st') :
    ∃ evs, Reads fs false st.included ((if isRef then .reference f none else .incl f) :: cs) evs st'.included ∧ replay b n evs st = .ok st' := by
  have hf : fileOf (if isRef then .reference f none else .incl f) = some (f, isRef, none) := by cases isRef <;> rfl
  have ha : Cmd.allowed false (if isRef then .reference f none else .incl f) = true := by cases isRef <;> rfl
  rcases includeFile_ok b n fs d f isRef none st st1 h with ⟨hm, rfl⟩ | ⟨hm, cmds, e1, inc1, hfs, hr1, hp1, rfl, _⟩
  · exact ⟨_, .seen _ _ _ _ _ _ _ _ _ hf ha hm hr, hp⟩
  · refine ⟨_, .file _ _ _ _ _ _ _ _ _ _ _ _ hf ha hm hfs hr1 hr, ?_⟩
    simp only [replay, replayEvent, parseOpt, Run.map, Run.bind]
    rw [replay_append, hp1]
    exact hp

theorem main_reads {b : Env} {n : Nat} {fs : Name → Option (List Cmd)} {d : Nat} {i : Input} {r : Response} : ∀ {includes : List (Name × Bool)}
    {st st' : State}, main b n fs d includes i st = .ok (st', r) →
    ∃ evs, Reads fs false st.included (mainCmds includes i) evs st'.included ∧ replay b n evs st = .ok st' ∧ r = st'.response
  | [], st, st', h => by
    simp only [main, includeAll, Run.bind, Run.map_ok] at h
    obtain ⟨s1, h1, h2⟩ := h
    cases h2
    cases i with
    | file f =>
      obtain ⟨evs, hr, hp⟩ := incl_reads (st' := st') (cs := []) (evs := []) h1 (.nil _ _) rfl
      exact ⟨evs, hr, hp, rfl⟩
    | stdin cmds =>
      obtain ⟨evs, hr, hp⟩ := runCmds_ok (includeFile_ok b n fs d) cmds h1
      exact ⟨evs, hr, hp, rfl⟩
  | (f, isRef) :: includes, st, st', h => by
    simp only [main, includeAll, Run.bind_ok] at h
    obtain ⟨s2, ⟨s1, h1, h2⟩, h3⟩ := h
    obtain ⟨evs, hr, hp, hres⟩ := main_reads (includes := includes) (st := s1) (st' := st') (by
      simp only [main, Run.bind_ok]; exact ⟨s2, h2, h3⟩)
    obtain ⟨evs', hr', hp'⟩ := incl_reads h1 hr hp
    exact ⟨evs', by cases i <;> exact hr', hp', hres⟩

/-- **C44**.  A run of the checker is the execution of the commands of its input, where an `include` or `reference` is
replaced by the commands of the file named the first time that file is named and has no effect the other times: for every
file system (with files including each other in any way) every file is read at most once. -/
theorem C44_once {b : Env} {n next : Nat} {fs : Name → Option (List Cmd)} {d : Nat} {includes : List (Name × Bool)} {i : Input} {st : State}
    {r : Response} (h : main b n fs d includes i (State.init b next) = .ok (st, r)) :
    ∃ evs inc, Reads fs false [] (mainCmds includes i) evs inc ∧ (files evs).Nodup ∧ replay b n evs (State.init b next) = .ok st := by
  obtain ⟨evs, hr, hp, _⟩ := main_reads h
  refine ⟨evs, _, hr, ?_, hp⟩
  have h1 := Reads.nodup hr .nil
  rw [Reads.mono hr] at h1
  have h2 : (files evs).reverse.Nodup := by simpa [State.init] using h1
  exact (List.pairwise_reverse.1 h2).imp fun h => Ne.symm h

/-- the number of files that were not read yet -/
def unread (all inc : List Name) : Nat := (all.filter fun f => f ∉ inc).length

theorem unread_mono {all inc inc' : List Name} (h : ∀ f ∈ inc, f ∈ inc') : unread all inc' ≤ unread all inc := by
  simp only [unread]
  induction all with
  | nil => simp
  | cons g all ih =>
    simp only [List.filter_cons]
    by_cases h1 : g ∈ inc
    · simp [h1, h g h1]; simpa using ih
    · by_cases h2 : g ∈ inc'
      · simp [h1, h2]; simp at ih; omega
      · simp [h1, h2]; simpa using ih

theorem unread_lt {all inc : List Name} {f : Name} (hf : f ∈ all) (hn : f ∉ inc) : unread all (f :: inc) < unread all inc := by
  induction all with
  | nil => cases hf
  | cons g all ih =>
    by_cases hg : g = f
    · subst hg
      have := unread_mono (all := all) (inc := inc) (inc' := g :: inc) (fun x hx => by simp [hx])
      simp only [unread, List.filter_cons] at this ⊢
      simp [hn]; simp at this; omega
    · have := ih (by simpa [Ne.symm hg] using hf)
      simp only [unread, List.filter_cons] at this ⊢
      by_cases h1 : g ∈ inc
      · simp [hg, h1]; simpa using this
      · simp [hg, h1]; simpa using this

theorem incl_grows {b : Env} {n : Nat} {fs : Name → Option (List Cmd)} {d : Nat} {f : Name} {isRef : Bool} {nf : Option Term} {st st' : State}
    (h : includeFile b n fs d f isRef nf st = .ok st') : ∀ g ∈ st.included, g ∈ st'.included := by
  intro g hg
  rcases includeFile_ok b n fs d f isRef nf st st' h with ⟨_, rfl⟩ | ⟨_, cmds, evs, inc', _, hr, _, rfl, _⟩
  · exact hg
  · rw [Reads.mono hr]; simp [hg]

/-- a state of the run that begins in `init` -/
def Reached (b : Env) (n : Nat) (init st : State) : Prop := ∃ evs, replay b n evs init = .ok st

theorem Reached.step {b : Env} {n : Nat} {init st st' : State} (h : Reached b n init st) {evs : List Event} (h' : replay b n evs st = .ok st') :
    Reached b n init st' := by
  obtain ⟨e0, h0⟩ := h
  exact ⟨e0 ++ evs, by rw [replay_append, h0]; exact h'⟩

/-- the commands of the input and of the files -/
def Occurs (fs : Name → Option (List Cmd)) (top : List Cmd) (c : Cmd) : Prop := c ∈ top ∨ ∃ f cmds, fs f = some cmds ∧ c ∈ cmds

/-- the event of a command, not counting the commands of the file it includes -/
def eventOf (c : Cmd) : Event :=
  match fileOf c with
  | none => .cmd c
  | some (f, r, nf) => .skip f r nf

theorem Run.bind_fuel {α β : Type} {r : Run α} {f : α → Run β} : r.bind f = .fuel ↔ r = .fuel ∨ ∃ x, r = .ok x ∧ f x = .fuel := by
  cases r <;> simp [Run.bind]

theorem Run.map_fuel {α β : Type} {r : Run α} {f : α → β} : r.map f = .fuel ↔ r = .fuel := by
  cases r <;> simp [Run.map]

/-- the state in which the commands of a file are executed -/
def entered (st : State) (f : Name) (isRef : Bool) (nf : Option Term) : State :=
  { st with included := f :: st.included, hasRef := isRef, refNf := nf }

theorem runCmds_fuel {b : Env} {n : Nat} {fs : Name → Option (List Cmd)} {top : List Cmd} {all : List Name} {d : Nat} {init : State}
    (hev : ∀ st c, Reached b n init st → Occurs fs top c → replayEvent b n st (eventOf c) ≠ .fuel)
    (hi : ∀ f r nf (st : State), Reached b n init (entered st f r nf) → unread all st.included < d → includeFile b n fs d f r nf st ≠ .fuel)
    {isRef : Bool} : ∀ (cs : List Cmd) (st : State), (∀ c ∈ cs, Occurs fs top c) → Reached b n init st → unread all st.included < d →
      runCmds b n (includeFile b n fs d) isRef cs st ≠ .fuel
  | [], st, _, _, _ => by simp [runCmds]
  | c :: cs, st, ho, hr, hm => by
    have ih := fun st => runCmds_fuel hev hi (isRef := isRef) cs st (fun c hc => ho c (by simp [hc]))
    have hc := hev st c hr (ho c (by simp))
    have hf : ∀ f r nf (s0 : State) t, parseOpt b n nf st = .ok (s0, t) →
        (includeFile b n fs d f r t s0).bind (runCmds b n (includeFile b n fs d) isRef cs) ≠ .fuel := by
      intro f r nf s0 t h0
      have e0 : s0.included = st.included := included_frame.parseOpt h0
      have hen : Reached b n init (entered s0 f r t) := hr.step (evs := [.enter f r nf]) (by
        simp [replay, replayEvent, h0, Run.map, Run.bind, entered])
      rw [Ne, Run.bind_fuel]
      rintro (h | ⟨s1, h, h1⟩)
      · exact hi f r t s0 hen (by rw [e0]; exact hm) h
      · have hs1 : Reached b n init s1 := by
          rcases includeFile_ok b n fs d f r t s0 s1 h with ⟨_, rfl⟩ | ⟨_, cmds, evs, inc', _, _, hp, _, _⟩
          · exact hr.step (evs := [.skip f r nf]) (by simp [replay, replayEvent, h0, Run.map, Run.bind])
          · exact hen.step hp
        exact ih s1 hs1 (Nat.lt_of_le_of_lt (unread_mono (incl_grows h)) (by rw [e0]; exact hm)) h1
    have he : fileOf c = none → (exec b n st c).bind (runCmds b n (includeFile b n fs d) isRef cs) ≠ .fuel := by
      intro hn
      simp only [eventOf, hn, replayEvent] at hc
      rw [Ne, Run.bind_fuel]
      rintro (h | ⟨s1, h0, h1⟩)
      · exact hc h
      · exact ih s1 (hr.step (evs := [.cmd c]) (by simp only [replay, replayEvent, h0, Run.bind]))
          (by rw [included_frame.exec h0]; exact hm) h1
    simp only [runCmds]
    split
    · cases c with
      | exit => simp
      | incl f =>
        simp only
        split
        · simp
        · exact hf f false none st none rfl
      | reference f nf =>
        simp only
        split
        · simp
        · rw [Ne, Run.bind_fuel]
          rintro (h | ⟨⟨s0, t⟩, h0, h1⟩)
          · simp [eventOf, fileOf, replayEvent, h, Run.map] at hc
          · exact hf f true nf s0 t h0 h1
      | _ => exact he rfl
    · simp

theorem includeFile_fuel {b : Env} {n : Nat} {fs : Name → Option (List Cmd)} {top : List Cmd} {all : List Name} (hall : ∀ f, fs f ≠ none → f ∈ all)
    {init : State} (hev : ∀ st c, Reached b n init st → Occurs fs top c → replayEvent b n st (eventOf c) ≠ .fuel) :
    ∀ (d : Nat) f r nf (st : State), Reached b n init (entered st f r nf) → unread all st.included < d → includeFile b n fs d f r nf st ≠ .fuel
  | 0, _, _, _, _, _, h => by cases h
  | d+1, f, r, nf, st, hr, h => by
    simp only [includeFile]
    split
    · simp
    · rename_i cmds hfs
      split
      · simp
      · rename_i hn
        have hlt := unread_lt (hall f (by rw [hfs]; simp)) hn
        rw [Ne, Run.bind_fuel]
        rintro (h1 | ⟨s1, h1, h2⟩)
        · exact runCmds_fuel hev (includeFile_fuel hall hev d) cmds (entered st f r nf) (fun c hc => .inr ⟨f, cmds, hfs, hc⟩) hr
            (by simp only [entered]; omega) h1
        · split at h2 <;> cases h2

/-- **C44**.  Processing terminates for finitely many files: if `all` are the files, no include structure nests more than
`all.length` of them, so that a run ends whenever each of its commands does. -/
theorem C44_terminates {b : Env} {n next : Nat} {fs : Name → Option (List Cmd)} {all : List Name} (hall : ∀ f, fs f ≠ none → f ∈ all)
    {d : Nat} (hd : all.length < d) {includes : List (Name × Bool)} {i : Input}
    (hev : ∀ evs st c, replay b n evs (State.init b next) = .ok st → Occurs fs (mainCmds includes i) c → replayEvent b n st (eventOf c) ≠ .fuel) :
    main b n fs d includes i (State.init b next) ≠ .fuel := by
  have hle : ∀ inc, unread all inc < d := fun inc =>
    Nat.lt_of_le_of_lt (by simp only [unread]; exact List.length_filter_le _ _) hd
  have hev' : ∀ st c, Reached b n (State.init b next) st → Occurs fs (mainCmds includes i) c → replayEvent b n st (eventOf c) ≠ .fuel :=
    fun st c ⟨evs, h⟩ => hev evs st c h
  have hf := includeFile_fuel hall hev' d
  have hent : ∀ (st : State) f r, Reached b n (State.init b next) st → Reached b n (State.init b next) (entered st f r none) := fun st f r h =>
    h.step (evs := [.enter f r none]) rfl
  have hnext : ∀ (st : State) f r s1, Reached b n (State.init b next) st → includeFile b n fs d f r none st = .ok s1 →
      Reached b n (State.init b next) s1 := by
    intro st f r s1 h h1
    rcases includeFile_ok b n fs d f r none st s1 h1 with ⟨_, rfl⟩ | ⟨_, cmds, evs, inc', _, _, hp, _, _⟩
    · exact h
    · exact (hent st f r h).step hp
  have ha : ∀ l (st : State), Reached b n (State.init b next) st → includeAll b n fs d l st ≠ .fuel ∧
      ∀ s1, includeAll b n fs d l st = .ok s1 → Reached b n (State.init b next) s1 := by
    intro l
    induction l with
    | nil => intro st h; exact ⟨by simp [includeAll], fun s1 h1 => by simp only [includeAll] at h1; cases h1; exact h⟩
    | cons p l ih =>
      intro st h
      simp only [includeAll]
      refine ⟨?_, ?_⟩
      · rw [Ne, Run.bind_fuel]
        rintro (h1 | ⟨s1, h1, h2⟩)
        · exact hf p.1 p.2 none st (hent st _ _ h) (hle _) h1
        · exact (ih s1 (hnext st _ _ s1 h h1)).1 h2
      · intro s2 h2
        rw [Run.bind_ok] at h2
        obtain ⟨s1, h1, h2⟩ := h2
        exact (ih s1 (hnext st _ _ s1 h h1)).2 s2 h2
  have h0 : Reached b n (State.init b next) (State.init b next) := ⟨[], rfl⟩
  simp only [main]
  rw [Ne, Run.bind_fuel]
  rintro (h | ⟨s1, h1, h⟩)
  · exact (ha includes _ h0).1 h
  · rw [Run.map_fuel] at h
    have hs1 := (ha includes _ h0).2 s1 h1
    cases i with
    | file f => exact hf f false none s1 (hent s1 _ _ hs1) (hle _) h
    | stdin cmds =>
      refine runCmds_fuel hev' hf cmds s1 (fun c hc => .inl ?_) hs1 (hle _) h
      simp [mainCmds, hc]

/-- two files that include each other -/
def exFs : Name → Option (List Cmd) := fun f =>
  if f = nm "a" then some [.incl (nm "b"), .declareSort (nm "A") 0]
  else if f = nm "b" then some [.incl (nm "a"), .declareSort (nm "B") 1, .incl (nm "b")]
  else none

/-- `main` accepts them, so that the hypothesis of `C44_once` holds for a cyclic include structure -/
example (b : Env) : ∃ st, main b 0 exFs 3 [] (.file (nm "a")) (State.init b 10) = .ok (st, .correct) ∧ st.included = [nm "b", nm "a"] ∧
    st.next = 12 := ⟨_, rfl, rfl, rfl⟩

/-- the events of that run -/
example (b : Env) : ∃ inc, Reads exFs false [] (mainCmds [] (.file (nm "a")))
    [.enter (nm "a") false none, .enter (nm "b") false none, .skip (nm "a") false none, .cmd (.declareSort (nm "B") 1), .skip (nm "b") false none,
      .cmd (.declareSort (nm "A") 0)] inc :=
  ⟨_, .file (e1 := [.enter (nm "b") false none, .skip (nm "a") false none, .cmd (.declareSort (nm "B") 1), .skip (nm "b") false none,
      .cmd (.declareSort (nm "A") 0)]) (e2 := []) _ _ _ _ _ _ _ _ _ _ rfl rfl (by simp) rfl
    (.file (e1 := [.skip (nm "a") false none, .cmd (.declareSort (nm "B") 1), .skip (nm "b") false none])
      (e2 := [.cmd (.declareSort (nm "A") 0)]) _ _ _ _ _ _ _ _ _ _ rfl rfl (by decide) rfl
      (.seen _ _ _ _ _ _ _ _ _ rfl rfl (by decide) (.cmd _ _ _ _ _ _ rfl (by simp) rfl (.seen _ _ _ _ _ _ _ _ _ rfl rfl (by decide) (.nil _ _))))
      (.cmd _ _ _ _ _ _ rfl (by simp) rfl (.nil _ _))) (.nil _ _)⟩

/-- the hypotheses of `C44_terminates` hold for them -/
example (b : Env) : main b 0 exFs 3 [] (.file (nm "a")) (State.init b 10) ≠ .fuel := by
  refine C44_terminates (all := [nm "a", nm "b"]) ?_ (by decide) ?_
  · intro f h
    simp only [exFs] at h
    split at h
    · rename_i hf; simp [hf]
    · split at h
      · rename_i hf; simp [hf]
      · exact absurd rfl h
  · intro evs st c _ hc
    have : c = .incl (nm "a") ∨ c = .incl (nm "b") ∨ c = .declareSort (nm "A") 0 ∨ c = .declareSort (nm "B") 1 := by
      rcases hc with hc | ⟨f, cmds, hf, hc⟩
      · simp [mainCmds] at hc; simp [hc]
      · simp only [exFs] at hf
        split at hf
        · cases hf; simp at hc; rcases hc with rfl | rfl <;> simp
        · split at hf
          · cases hf; simp at hc; rcases hc with rfl | rfl | rfl <;> simp
          · cases hf
    rcases this with rfl | rfl | rfl | rfl <;> simp [eventOf, fileOf, replayEvent, parseOpt, Run.map, exec]

/-! ### C39 -/

/-- what most commands leave unchanged -/
theorem rules_frame : AsmFrame fun st st' => st'.decls.rules = st.decls.rules ∧ st'.used = st.used ∧ st'.pfrSorry = st.pfrSorry ∧ st.next ≤ st'.next where
  refl _ := ⟨rfl, rfl, rfl, Nat.le_refl _⟩
  trans h1 h2 := ⟨h2.1.trans h1.1, h2.2.1.trans h1.2.1, h2.2.2.1.trans h1.2.2.1, Nat.le_trans h1.2.2.2 h2.2.2.2⟩
  bind _ _ _ := ⟨rfl, rfl, rfl, Nat.le_refl _⟩
  push _ := ⟨rfl, rfl, rfl, Nat.le_refl _⟩
  pop h := by
    simp only [State.pop, Run.map_ok] at h
    obtain ⟨_, _, rfl⟩ := h; exact ⟨rfl, rfl, rfl, Nat.le_refl _⟩
  sym _ _ _ _ := ⟨rfl, rfl, rfl, Nat.le_succ _⟩
  mark st v a c := ⟨by simp only [Decls.markConstructorKind]; split <;> rfl, rfl, rfl, Nat.le_refl _⟩
  lit {st k t d} h := by
    refine ⟨?_, rfl, rfl, Nat.le_refl _⟩
    simp only [Decls.setLiteralTypeRule] at h
    split at h
    · split at h
      · split at h
        · cases h; rfl
        · cases h
      · cases h; rfl
    · cases h
  refAssert _ _ := ⟨rfl, rfl, rfl, Nat.le_refl _⟩
  asm _ _ _ := ⟨rfl, rfl, rfl, Nat.le_refl _⟩
  reset _ := ⟨rfl, rfl, rfl, Nat.le_refl _⟩

/-- the tables of rules after the given events -/
structure SorryInv (evs : List Event) (st : State) : Prop where
  inj : ∀ x y r, st.decls.rules x = some r → st.decls.rules y = some r → x = y
  fresh : ∀ x r, st.decls.rules x = some r → ∃ i, r = .sym PROOF_RULE i ∧ i < st.next
  steps : ∀ s, .cmd (.step s) ∈ evs → ∃ r, st.decls.rules s.rule = some r
  decls : ∀ R, .cmd (.declareRule R) ∈ evs → ∃ r, st.decls.rules R.name = some r
  used : ∀ r, r ∈ st.used ↔ ∃ s, .cmd (.step s) ∈ evs ∧ st.decls.rules s.rule = some r
  sry : ∀ r, r ∈ st.pfrSorry ↔ ∃ R, .cmd (.declareRule R) ∈ evs ∧ R.sry = true ∧ st.decls.rules R.name = some r

theorem SorryInv.same {evs : List Event} {st st' : State} {e : Event} (h : SorryInv evs st) (h1 : st'.decls.rules = st.decls.rules)
    (h2 : st'.used = st.used) (h3 : st'.pfrSorry = st.pfrSorry) (h4 : st.next ≤ st'.next) (hs : ∀ s, e ≠ .cmd (.step s))
    (hd : ∀ R, e ≠ .cmd (.declareRule R)) : SorryInv (evs ++ [e]) st' := by
  have ms : ∀ s, .cmd (.step s) ∈ evs ++ [e] ↔ .cmd (.step s) ∈ evs := fun s => by
    simp only [List.mem_append, List.mem_singleton]
    exact ⟨fun h => h.resolve_right fun h => hs s h.symm, .inl⟩
  have md : ∀ R, .cmd (.declareRule R) ∈ evs ++ [e] ↔ .cmd (.declareRule R) ∈ evs := fun s => by
    simp only [List.mem_append, List.mem_singleton]
    exact ⟨fun h => h.resolve_right fun h => hd s h.symm, .inl⟩
  refine ⟨?_, ?_, ?_, ?_, ?_, ?_⟩
  · rw [h1]; exact h.inj
  · rw [h1]; intro x r hx; obtain ⟨i, e, hi⟩ := h.fresh x r hx; exact ⟨i, e, Nat.lt_of_lt_of_le hi h4⟩
  · simp only [ms, h1]; exact h.steps
  · simp only [md, h1]; exact h.decls
  · simp only [ms, h1, h2]; exact h.used
  · simp only [md, h1, h3]; exact h.sry

theorem SorryInv.exec {b : Env} {n : Nat} {evs : List Event} {st st' : State} {c : Cmd} (h : SorryInv evs st) (he : exec b n st c = .ok st') :
    SorryInv (evs ++ [.cmd c]) st' := by
  have F := rules_frame
  by_cases hs : ∃ s, c = .step s
  · obtain ⟨s, rfl⟩ := hs
    obtain ⟨s1, proven, rule, s2, prems, s3, args, conc, ty, s4, _, h1, hr, h2, h3, _, _, _, _, h4, rfl⟩ := execStep_ok he
    have e1 := F.parseConc h1
    have e2 := F.trans (F.parseList b n _ h2) (F.parseList b n _ h3)
    have e3 : s4.decls.rules = s3.decls.rules ∧ s4.used = s3.used ∧ s4.pfrSorry = s3.pfrSorry ∧ s3.next ≤ s4.next := by
      split at h4
      · exact F.popAssumption h4
      · cases h4; exact F.refl _
    have hrules : (s4.bind s.name (mkProof conc)).decls.rules = st.decls.rules := e3.1.trans (e2.1.trans e1.1)
    have hused : (s4.bind s.name (mkProof conc)).used = rule :: st.used := by
      show s4.used = _
      rw [e3.2.1, e2.2.1, ← e1.2.1]
    have hsry : (s4.bind s.name (mkProof conc)).pfrSorry = st.pfrSorry := e3.2.2.1.trans (e2.2.2.1.trans e1.2.2.1)
    have hnext : st.next ≤ (s4.bind s.name (mkProof conc)).next := Nat.le_trans e1.2.2.2 (Nat.le_trans e2.2.2.2 e3.2.2.2)
    rw [e1.1] at hr
    refine ⟨?_, ?_, ?_, ?_, ?_, ?_⟩
    · rw [hrules]; exact h.inj
    · rw [hrules]; intro x r hx; obtain ⟨i, e, hi⟩ := h.fresh x r hx; exact ⟨i, e, Nat.lt_of_lt_of_le hi hnext⟩
    · rw [hrules]; intro s' hs'
      simp only [List.mem_append, List.mem_singleton, Event.cmd.injEq, Cmd.step.injEq] at hs'
      rcases hs' with hs' | rfl
      · exact h.steps s' hs'
      · exact ⟨rule, hr⟩
    · rw [hrules]; intro R hR
      simp at hR
      exact h.decls R hR
    · rw [hrules, hused]; intro r
      simp only [List.mem_cons, List.mem_append, h.used, Event.cmd.injEq, Cmd.step.injEq, List.not_mem_nil, or_false]
      constructor
      · rintro (rfl | ⟨s', h1, h2⟩)
        · exact ⟨s, .inr rfl, hr⟩
        · exact ⟨s', .inl h1, h2⟩
      · rintro ⟨s', hm | rfl, hx⟩
        · exact .inr ⟨s', hm, hx⟩
        · rw [hr] at hx; cases hx; exact .inl rfl
    · rw [hrules, hsry]; intro r
      simp only [List.mem_append, h.sry, List.mem_singleton, Event.cmd.injEq, reduceCtorEq, or_false]
  · by_cases hd : ∃ r, c = .declareRule r
    · obtain ⟨r, rfl⟩ := hd
      obtain ⟨_, s1, s2, asm, s3, prems, pcons, s4, args, s5, reqs, s6, conc, ret, s7, s8, prog, decls, h1, h2, h3, h4, h5, h6, _, h8, h9, h10, e⟩ :=
        execDeclareRule_ok he
      have e1 := F.trans (F.push st) (F.trans (F.bindRuleParams h1) (F.trans (F.parseOpt h2) (F.trans (F.parsePremises h3) (F.trans (F.parseList b n _ h4)
        (F.trans (F.parsePairs _ h5) (F.trans (F.parseExpr b n _ h6) (F.pop h8)))))))
      have e2 := F.trans (F.sym s7 PROOF_RULE r.name tBool) (F.ruleProg h9)
      have hnx : s7.next < s8.next := Nat.lt_of_lt_of_le (Nat.lt_succ_self _) (F.ruleProg h9).2.2.2
      have hr8 : s8.decls.rules = st.decls.rules := e2.1.trans e1.1
      simp only [Decls.bindRule] at h10
      split at h10
      · cases h10
      · rename_i hnone
        cases h10
        rw [hr8] at hnone
        have hrules : st'.decls.rules = fun m => if m = r.name then some (.sym PROOF_RULE s7.next) else st.decls.rules m := by
          rw [e, ← hr8]
          simp only [Decls.markConstructorKind]
          split <;> rfl
        have hused : st'.used = st.used := by rw [e]; exact e2.2.1.trans e1.2.1
        have hsry : st'.pfrSorry = if r.sry then .sym PROOF_RULE s7.next :: st.pfrSorry else st.pfrSorry := by
          rw [e]; simp only; rw [e2.2.2.1, e1.2.2.1]
        have hnext : s8.next = st'.next := by rw [e]
        have hold : ∀ x r', st.decls.rules x = some r' → r' ≠ .sym PROOF_RULE s7.next ∧ x ≠ r.name := by
          intro x r' hx
          obtain ⟨i, rfl, hi⟩ := h.fresh x r' hx
          refine ⟨fun he => ?_, fun he => ?_⟩
          · cases he; have := e1.2.2.2; omega
          · subst he; rw [hnone] at hx; cases hx
        refine ⟨?_, ?_, ?_, ?_, ?_, ?_⟩
        · rw [hrules]; intro x y r' hx hy
          simp only at hx hy
          split at hx <;> split at hy
          · rename_i a c; rw [a, c]
          · cases hx; exact absurd rfl (hold _ _ hy).1
          · cases hy; exact absurd rfl (hold _ _ hx).1
          · exact h.inj x y r' hx hy
        · rw [hrules]; intro x r' hx
          simp only at hx
          split at hx
          · cases hx; exact ⟨_, rfl, by omega⟩
          · obtain ⟨i, e, hi⟩ := h.fresh x r' hx
            exact ⟨i, e, by have := e1.2.2.2; omega⟩
        · intro s hs
          simp at hs
          obtain ⟨r', hr'⟩ := h.steps s hs
          exact ⟨r', by rw [hrules]; simp [(hold _ _ hr').2, hr']⟩
        · intro R hR
          simp only [List.mem_append, List.mem_singleton, Event.cmd.injEq, Cmd.declareRule.injEq] at hR
          rcases hR with hR | rfl
          · obtain ⟨r', hr'⟩ := h.decls R hR
            exact ⟨r', by rw [hrules]; simp [(hold _ _ hr').2, hr']⟩
          · exact ⟨.sym PROOF_RULE s7.next, by rw [hrules]; simp⟩
        · rw [hused]; intro r'
          simp only [List.mem_append, h.used, List.mem_singleton, Event.cmd.injEq, reduceCtorEq, or_false]
          constructor
          · rintro ⟨s, hs, hx⟩; exact ⟨s, hs, by rw [hrules]; simp [(hold _ _ hx).2, hx]⟩
          · rintro ⟨s, hs, hx⟩
            obtain ⟨r'', hr''⟩ := h.steps s hs
            rw [hrules] at hx; simp only [(hold _ _ hr'').2, if_false] at hx
            exact ⟨s, hs, hx⟩
        · rw [hsry]; intro r'
          simp only [List.mem_append, List.mem_singleton, Event.cmd.injEq, Cmd.declareRule.injEq]
          have hR : ∀ R, .cmd (.declareRule R) ∈ evs → ∀ r', st'.decls.rules R.name = some r' ↔ st.decls.rules R.name = some r' := by
            intro R hR r'
            obtain ⟨r'', hr''⟩ := h.decls R hR
            rw [hrules]; simp [(hold _ _ hr'').2]
          constructor
          · intro hm
            by_cases hsr : r.sry = true
            · simp only [hsr, if_true, List.mem_cons] at hm
              rcases hm with rfl | hm
              · exact ⟨r, .inr rfl, hsr, by rw [hrules]; simp⟩
              · obtain ⟨R, h1, h2, h3⟩ := (h.sry r').1 hm
                exact ⟨R, .inl h1, h2, (hR R h1 r').2 h3⟩
            · simp only [hsr] at hm
              obtain ⟨R, h1, h2, h3⟩ := (h.sry r').1 hm
              exact ⟨R, .inl h1, h2, (hR R h1 r').2 h3⟩
          · rintro ⟨R, h1 | rfl, h2, h3⟩
            · have := (h.sry r').2 ⟨R, h1, h2, (hR R h1 r').1 h3⟩
              split
              · simp [this]
              · exact this
            · rw [hrules] at h3; simp at h3
              simp [h2, h3]
    · obtain ⟨h1, h2, h3, h4⟩ := F.exec he (fun s e => hs ⟨s, e⟩) (fun r e => hd ⟨r, e⟩)
      exact h.same h1 h2 h3 h4 (fun s e => hs ⟨s, by cases e; rfl⟩) (fun r e => hd ⟨r, by cases e; rfl⟩)

theorem SorryInv.replay {b : Env} {n : Nat} : ∀ (evs : List Event) {es : List Event} {st st' : State}, SorryInv es st →
    replay b n evs st = .ok st' → SorryInv (es ++ evs) st'
  | [], es, st, st', h, hr => by simp only [Spec.replay] at hr; cases hr; simpa using h
  | e :: evs, es, st, st', h, hr => by
    simp only [Spec.replay, Run.bind_ok] at hr
    obtain ⟨s1, h1, h2⟩ := hr
    have : SorryInv (es ++ [e]) s1 := by
      cases e with
      | cmd c => exact h.exec h1
      | skip f r nf =>
        simp only [replayEvent, Run.map_ok] at h1
        obtain ⟨⟨s0, t⟩, h0, rfl⟩ := h1
        obtain ⟨a1, a2, a3, a4⟩ := rules_frame.parseOpt h0
        exact h.same a1 a2 a3 a4 (by simp) (by simp)
      | enter f r nf =>
        simp only [replayEvent, Run.map_ok] at h1
        obtain ⟨⟨s0, t⟩, h0, rfl⟩ := h1
        obtain ⟨a1, a2, a3, a4⟩ := rules_frame.parseOpt h0
        exact h.same a1 a2 a3 a4 (by simp) (by simp)
    simpa using SorryInv.replay evs this h2

/-- **C39**.  After a run without errors the response is `incomplete` exactly when one of the executed `step` or `step-pop`
commands names a rule that an executed `declare-rule` marks `:sorry`; otherwise it is `correct`.  The executed commands are
those of the input with the included files, `evs`. -/
theorem C39_verdict {b : Env} {n next : Nat} {fs : Name → Option (List Cmd)} {d : Nat} {includes : List (Name × Bool)} {i : Input} {st : State}
    {r : Response} {evs : List Event} {inc : List Name} (h : main b n fs d includes i (State.init b next) = .ok (st, r))
    (he : Reads fs false [] (mainCmds includes i) evs inc) :
    (r = .incomplete ↔ ∃ s R, .cmd (.step s) ∈ evs ∧ .cmd (.declareRule R) ∈ evs ∧ R.name = s.rule ∧ R.sry = true) ∧
    (r = .correct ↔ ¬ ∃ s R, .cmd (.step s) ∈ evs ∧ .cmd (.declareRule R) ∈ evs ∧ R.name = s.rule ∧ R.sry = true) := by
  obtain ⟨evs', hr, hp, hres⟩ := main_reads h
  obtain ⟨rfl, _⟩ := Reads.det he hr
  have h0 : SorryInv [] (State.init b next) := ⟨fun x y r h => (by cases h), fun x r h => (by cases h), fun s h => (by cases h),
    fun s h => (by cases h), fun r => (by simp [State.init]), fun r => (by simp [State.init])⟩
  have hi : SorryInv evs st := by simpa using h0.replay evs hp
  have key : (∃ x ∈ st.used, x ∈ st.pfrSorry) ↔ ∃ s R, .cmd (.step s) ∈ evs ∧ .cmd (.declareRule R) ∈ evs ∧ R.name = s.rule ∧ R.sry = true := by
    constructor
    · rintro ⟨x, h1, h2⟩
      obtain ⟨s, a1, a2⟩ := (hi.used x).1 h1
      obtain ⟨R, b1, b2, b3⟩ := (hi.sry x).1 h2
      exact ⟨s, R, a1, b1, hi.inj _ _ _ b3 a2, b2⟩
    · rintro ⟨s, R, h1, h2, h3, h4⟩
      obtain ⟨x, hx⟩ := hi.steps s h1
      exact ⟨x, (hi.used x).2 ⟨s, h1, hx⟩, (hi.sry x).2 ⟨R, h2, h4, by rw [h3]; exact hx⟩⟩
  rw [← key, hres, State.response]
  by_cases hx : st.used.any (fun r => decide (r ∈ st.pfrSorry)) = true
  · rw [if_pos hx]
    have : ∃ x ∈ st.used, x ∈ st.pfrSorry := by simpa [List.any_eq_true] using hx
    simpa using this
  · rw [if_neg hx]
    have : ¬ ∃ x ∈ st.used, x ∈ st.pfrSorry := by simpa [List.any_eq_true] using hx
    simpa using this

/-- a rule marked `:sorry` used in a proof, and the same rule declared but not used -/
def sorryCmds (use : Bool) : List Cmd :=
  [.declareConst (nm "p") .bool [], .declareConst (nm "q") .bool [],
   .declareRule { name := nm "trust", params := [⟨nm "F", .bool, []⟩], args := [sy "F"], conc := sy "F", sry := true },
   .declareRule { name := nm "id", params := [⟨nm "F", .bool, []⟩], premises := .each [sy "F"], conc := sy "F" },
   .assume (nm "h") (sy "p")] ++
  (if use then [.step { name := nm "s", rule := nm "trust", args := [sy "q"] }]
   else [.step { name := nm "s", rule := nm "id", premises := [sy "h"] }])

example : runEx (sorryCmds true) "s" = .ok (some (mkProof (.sym CONST 11)), .incomplete) := by decide +kernel
example : runEx (sorryCmds false) "s" = .ok (some (mkProof (.sym CONST 10)), .correct) := by decide +kernel
example (use : Bool) : Reads (fun _ => none) false [] (mainCmds [] (.stdin (sorryCmds use))) ((sorryCmds use).map .cmd) [] := by
  cases use
  all_goals
    iterate 6 refine .cmd _ _ _ _ _ _ rfl (by simp) rfl ?_
    exact .nil _ _

end Ethos.Props
