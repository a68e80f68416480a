import Verif.Props.Elab
import Verif.Props.Rules
import Verif.Spec.Nest
/-
C42 along the commands: definitions are final.  C61: where files are read.
-/
namespace Ethos.Props
open Ethos Kind Ethos.Spec

/-! ### C42 -/

section
variable {b : Env} {n n0 : Nat} {st st' : State}

theorem litFrame : FullFrame fun st st' : State => ∀ k t, st.decls.litRule k = some t → st'.decls.litRule k = some t where
  refl _ _ _ h := h
  trans h1 h2 k t h := h2 k t (h1 k t h)
  bind _ _ _ _ _ h := h
  push _ _ _ h := h
  pop h := by
    simp only [State.pop, Run.map_ok] at h
    obtain ⟨_, _, rfl⟩ := h; exact fun _ _ h => h
  sym _ _ _ _ _ _ h := h
  mark st v a c := by
    intro k t h
    show (st.decls.markConstructorKind v a c).1.litRule k = some t
    simp only [Decls.markConstructorKind]
    split <;> exact h
  lit := by
    intro st k t d h k' t' hk
    simp only [Decls.setLiteralTypeRule] at h
    split at h
    · split at h
      · split at h
        · cases h; exact hk
        · cases h
      · rename_i hn
        cases h
        show (if k' = k then some t else st.decls.litRule k') = some t'
        rw [if_neg]
        · exact hk
        · rintro rfl; rw [hn] at hk; cases hk
    · cases h
  refAssert _ _ _ _ h := h
  asm _ _ _ _ _ h := h
  reset _ _ _ h := h
  used _ _ _ _ h := h
  rule := by
    intro st x i d h
    simp only [Decls.bindRule] at h
    split at h
    · cases h
    · cases h; exact fun _ _ h => h
  sry _ _ _ _ h := h

theorem lit_event {e : Event} (h : replayEvent b n st e = .ok st') : ∀ k t, st.decls.litRule k = some t → st'.decls.litRule k = some t := by
  cases e with
  | enter f r nf =>
    simp only [replayEvent, Run.map_ok] at h
    obtain ⟨⟨s1, t⟩, h1, rfl⟩ := h
    exact fun k u hk => litFrame.parseOpt h1 k u hk
  | skip f r nf =>
    simp only [replayEvent, Run.map_ok] at h
    obtain ⟨⟨s1, t⟩, h1, rfl⟩ := h
    exact litFrame.parseOpt h1
  | cmd c => exact litFrame.exec h

theorem lit_replay : ∀ (es : List Event) {st : State}, replay b n es st = .ok st' →
    ∀ k t, st.decls.litRule k = some t → st'.decls.litRule k = some t
  | [], st, h => by simp only [replay] at h; cases h; exact fun _ _ h => h
  | e :: es, st, h => by
    simp only [replay, Run.bind_ok] at h
    obtain ⟨s1, h1, h2⟩ := h
    exact fun k t hk => lit_replay es h2 k t (lit_event h1 k t hk)

/-- **C42**, for all executions: from any state on, whatever commands are executed (`reset` included) and files are read, the
type of a symbol that exists, the attribute of a constant with its argument, the definition of a program, the type of a
category of literals and the rule with a given name stay what they are. -/
theorem C42_history {es : List Event} (h : replay b n es st = .ok st') :
    (∀ k i ty, st.symType (.sym k i) = some ty → i < st.next → st'.symType (.sym k i) = some ty) ∧
    (∀ t ai, st.decls.info t = some ai → ai.attr ≠ .NONE → st'.decls.info t = some ai) ∧
    (∀ t p, st.decls.getProgram t = some p → st'.decls.getProgram t = some p) ∧
    (∀ k t, st.decls.litRule k = some t → st'.decls.litRule k = some t) ∧
    (∀ x r, st.decls.rules x = some r → st'.decls.rules x = some r) := by
  have hk := Keeps.replay es h
  refine ⟨hk.symType, hk.info, ?_, lit_replay es h, hk.rules⟩
  intro t p hp
  simp only [Decls.getProgram] at hp
  split at hp
  · rename_i ai hi
    split at hp
    · rename_i ha
      have := hk.info t ai hi (by rw [ha]; decide)
      simp [Decls.getProgram, this, ha, hp]
    · cases hp
  · cases hp

/-- **C42**.  A program that has a definition cannot be given another one, nor can its name be declared as a program again. -/
theorem C42_program_again {es : List Event} (hr : .cmd .reset ∉ es) (h : replay b n es (State.init b n0) = .ok st) {x : Name} {p q : Term}
    (hx : st.scope.get x = some p) (hp : st.decls.getProgram p = some q) (ps : List SParam) (args : List SExp) (ret : SExp)
    (cases : Option (List (SExp × SExp))) : ∀ st', exec b n st (.program x ps args ret cases) ≠ .ok st' := by
  intro st' hc
  obtain ⟨a, _, ht⟩ := replay_table es hr (init_table b n0) h
  obtain ⟨s1, s2, ats, s3, rt, s4, pv, new, s5, body, s6, h1, h2, h3, h4, h5, h6, _⟩ := execProgram_ok (x := x) hc
  obtain ⟨z, hz, t1, _⟩ := bindRuleParams_table (a := a) (y := []) (refines_push ht) (by simp [ParamScope]) h1
  have t3 := (parseType_on (parseTypeList_on _ (On.refl t1) h2) h3).table
  have hk : Keeps st s3 := keepsFrame.trans (keepsFrame.push st) (keepsFrame.trans (keepsFrame.bindRuleParams h1)
    (keepsFrame.trans (keepsFrame.parseTypeList _ h2) (keepsFrame.parseType h3)))
  have hget : s3.scope.get x = lookupIn (z ++ a.all) x := by
    have := t3.holds.sym x
    rw [← up_all]
    exact this
  have hxa : a.lookup x = some p := (ht.holds.sym x).symm.trans hx
  simp only [Ethos.progVar] at h4
  split at h4
  · rename_i prev hprev
    rw [hget] at hprev
    rcases lookup_up hz hprev with ⟨i, rfl⟩ | ⟨h7, _⟩
    · simp [Term.kind] at h4
    · rw [hxa] at h7
      cases h7
      have : ((s3.env b).program p).isSome := by
        simp only [Decls.getProgram] at hp
        split at hp
        · rename_i ai hi
          split at hp
          · rename_i ha
            have := hk.info p ai hi (by rw [ha]; decide)
            simp [Env.program, State.env, Decls.appInfo, this, ha, hp]
          · cases hp
        · cases hp
      rw [if_pos this] at h4
      simp at h4
  · rename_i hn
    rw [hget] at hn
    have := lookup_up_none hn
    rw [hxa] at this
    cases this

end

/-- after `(program f ((x Bool)) (Bool) Bool (((f x) x)))` -/
example : (runEx [.program (nm "f") [{ name := nm "x", type := .bool }] [.bool] .bool (some [(ap "f" [sy "x"], sy "x")])] "f").map (·.1) =
    .ok (some (.sym PROGRAM_CONST 11)) := by decide +kernel
/-- a declaration without definition can be completed once -/
def fwdCmd : Cmd := .program (nm "f") [{ name := nm "x", type := .bool }] [.bool] .bool none
def defCmd : Cmd := .program (nm "f") [{ name := nm "y", type := .bool }] [.bool] .bool (some [(ap "f" [sy "y"], sy "y")])
example : (exRun [fwdCmd, defCmd]).map (fun st => (st.scope.get (nm "f"), (st.decls.getProgram (.sym PROGRAM_CONST 11)).isSome)) =
    .ok (some (.sym PROGRAM_CONST 11), true) := by decide +kernel
example : (exRun [fwdCmd, defCmd, defCmd]).map (fun _ => ()) = .err := by decide +kernel
example : (exRun [fwdCmd, fwdCmd, defCmd]).map (fun _ => ()) = .ok () := by decide +kernel

/-! ### C61 -/

theorem mayOccur_iff (r : Bool) (c : Cmd) : c.allowed r = true ↔ MayOccur r c := by
  cases c <;> cases r <;> simp [Cmd.allowed, MayOccur, Common, RefOnly]

theorem ref_frame : FullFrame fun st st' => st'.hasRef = st.hasRef where
  refl _ := rfl
  trans h1 h2 := h2.trans h1
  bind _ _ _ := rfl
  push _ := rfl
  pop h := by
    simp only [State.pop, Run.map_ok] at h
    obtain ⟨_, _, rfl⟩ := h; rfl
  sym _ _ _ _ := rfl
  mark _ _ _ _ := rfl
  lit _ := rfl
  refAssert _ _ := rfl
  asm _ _ _ := rfl
  reset _ := rfl
  used _ _ := rfl
  rule _ := rfl
  sry _ _ := rfl

section
variable {b : Env} {n : Nat} {st st' : State}

def posOf (st : State) : Pos := ⟨st.included, st.asmCtx.length, st.hasRef⟩

theorem level_exec {c : Cmd} (h : exec b n st c = .ok st') : levelAfter st.asmCtx.length c = some st'.asmCtx.length := by
  have hother := fun h1 h2 h3 => (other_asms (e := .cmd c) h1 h2 h3 h).2
  cases c with
  | assumePush x f =>
    obtain ⟨_, F, _, _, e⟩ := assume_asms h
    simp [levelAfter, e]
  | step s =>
    have := step_asms h
    by_cases hp : s.isPop = true
    · rw [if_pos hp] at this
      obtain ⟨k, r, e1, _, e2⟩ := this
      simp [levelAfter, hp, e1, e2]
    · rw [if_neg hp] at this
      simp [levelAfter, hp, this.2]
  | reset =>
    simp only [exec] at h
    cases h
    rfl
  | _ => simp [levelAfter, hother (by simp) (by simp) (by simp)]

/-- what is assumed of the function that reads a file -/
def InOk (fs : Name → Option (List Cmd)) (incl : Name → Bool → Option Term → State → Run State) : Prop :=
  ∀ f r nf st st', incl f r nf st = .ok st' → Into fs f r (posOf st) (posOf st')

theorem runCmds_nest {fs : Name → Option (List Cmd)} {incl : Name → Bool → Option Term → State → Run State} (hi : InOk fs incl) {isRef : Bool} :
    ∀ (cs : List Cmd) {st st' : State}, runCmds b n incl isRef cs st = .ok st' → Nest fs isRef cs (posOf st) (posOf st')
  | [], st, st', h => by simp only [runCmds] at h; cases h; exact .nil _ _
  | c :: cs, st, st', h => by
    simp only [runCmds, Run.ite_err'] at h
    obtain ⟨ha, h⟩ := h
    rw [mayOccur_iff] at ha
    by_cases hx : c = .exit
    · subst hx
      simp only at h; cases h
      exact .exit _ _ _
    · cases hc : fileOf c with
      | none =>
        have h' : (exec b n st c).bind (runCmds b n incl isRef cs) = .ok st' := by
          cases c <;> first | exact absurd rfl hx | exact h | cases hc
        simp only [Run.bind_ok] at h'
        obtain ⟨s1, h1, h2⟩ := h'
        have h3 := runCmds_nest hi cs h2
        refine .cmd _ _ _ _ _ _ hc hx ha (level_exec h1) ?_
        have e : posOf s1 = { posOf st with level := s1.asmCtx.length } := by
          simp only [posOf, included_frame.exec h1, ref_frame.exec h1]
        rw [← e]
        exact h3
      | some p =>
        obtain ⟨f, r, nf⟩ := p
        cases c with
        | incl g =>
          simp only [fileOf] at hc; cases hc
          simp only [Run.ite_err, Run.bind_ok] at h
          obtain ⟨h0, s1, h1, h2⟩ := h
          exact .file _ _ _ _ _ _ _ _ _ rfl ha (by simpa [posOf] using h0) (by simp) (hi _ _ _ _ _ h1) (runCmds_nest hi cs h2)
        | reference g nf' =>
          simp only [fileOf] at hc; cases hc
          simp only [Run.ite_err, Run.bind_ok] at h
          obtain ⟨h0, ⟨s0, t⟩, h1, s1, h2, h3⟩ := h
          have e : posOf s0 = posOf st := by
            simp only [posOf, included_frame.parseOpt h1, ref_frame.parseOpt h1, (sameAsms.toFrame.parseOpt h1).2]
          have h4 := hi _ _ _ _ _ h2
          rw [e] at h4
          have h0 : st.hasRef = false ∧ st.asmCtx = [] := by simpa using h0
          exact .file _ _ _ _ _ _ _ _ _ rfl ha (by simp [posOf, h0.2]) (fun _ => h0.1) h4 (runCmds_nest hi cs h3)
        | _ => cases hc

theorem includeFile_into (fs : Name → Option (List Cmd)) : ∀ d, InOk fs (includeFile b n fs d)
  | 0 => by intro f isRef nf st st' h; simp [includeFile] at h
  | d+1 => by
    intro f isRef nf st st' h
    simp only [includeFile] at h
    split at h
    · cases h
    · rename_i cmds hfs
      split at h
      · rename_i hm; cases h; exact .seen _ _ _ hm
      · rename_i hm
        simp only [Run.bind_ok, Run.ite_err] at h
        obtain ⟨s1, h1, h2, h3⟩ := h
        cases h3
        exact .enter _ _ _ _ _ hm hfs (runCmds_nest (includeFile_into fs d) cmds h1) (by simpa [posOf] using h2)

theorem includeAll_options (fs : Name → Option (List Cmd)) (d : Nat) : ∀ (l : List (Name × Bool)) {st st' : State},
    includeAll b n fs d l st = .ok st' → IncludeOptions fs l (posOf st) (posOf st')
  | [], st, st', h => by simp only [includeAll] at h; cases h; rfl
  | (f, r) :: l, st, st', h => by
    simp only [includeAll, Run.bind_ok] at h
    obtain ⟨s1, h1, h2⟩ := h
    exact ⟨_, includeFile_into fs d _ _ _ _ _ h1, includeAll_options fs d l h2⟩

/-- **C61**.  In every run that ends without error, the commands are allowed in the files in which they occur, every file is
read while no assumption scope is open and closes all it opens, a `step-pop` has an assumption scope to close, and no
`reference` follows a reference file without another file between them. -/
theorem C61_files {fs : Name → Option (List Cmd)} {d n0 : Nat} {includes : List (Name × Bool)} {i : Input} {r : Response}
    (h : main b n fs d includes i (State.init b n0) = .ok (st', r)) :
    Whole fs includes i ⟨st'.included, st'.asmCtx.length, st'.hasRef⟩ := by
  simp only [main, Run.bind_ok, Run.map_ok] at h
  obtain ⟨s1, h1, s2, h2, h3⟩ := h
  cases h3
  refine ⟨posOf s1, includeAll_options fs d includes h1, ?_⟩
  cases i with
  | file f => exact includeFile_into fs d _ _ _ _ _ h2
  | stdin cmds => exact runCmds_nest (includeFile_into fs d) cmds h2

end

/-! ### Examples -/

/-- a proof in two files: the second one is the first one's signature -/
def twoFiles : Name → Option (List Cmd) := fun f =>
  if f = nm "sig" then some (scopeCmds.take 2) else if f = nm "pf" then some (Cmd.incl (nm "sig") :: scopeCmds.drop 2 ++ [scopeStep]) else none

example : ((main exB 10 twoFiles 2 [] (.file (nm "pf")) (State.init exB 10)).map fun p => (p.1.included, p.1.asmCtx, p.2)) =
    .ok ([nm "sig", nm "pf"], [], .correct) := by decide +kernel
/-- without the last command, the file leaves an assumption open -/
example : ((main exB 10 (fun f => if f = nm "pf" then some scopeCmds else none) 2 [] (.file (nm "pf")) (State.init exB 10)).map fun _ => ()) =
    .err := by decide +kernel
/-- the standard input may -/
example : ((main exB 10 twoFiles 2 [] (.stdin scopeCmds) (State.init exB 10)).map fun p => p.1.asmCtx.length) = .ok 1 := by decide +kernel
/-- a file included in an assumption scope -/
example : ((main exB 10 twoFiles 2 [] (.stdin (scopeCmds ++ [.incl (nm "sig")])) (State.init exB 10)).map fun _ => ()) = .err := by decide +kernel

end Ethos.Props
