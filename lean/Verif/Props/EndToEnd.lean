import Verif.Props.CommandLine
import Verif.Props.Sound
/-
C37 for every point of a run, and for runs of the program on texts.
-/
namespace Ethos.Props
open Ethos Kind Spec

variable {b : Env} {n n0 : Nat} {st st' : State} {es : List Event}

theorem Derives.more {R R' : RuleDef → Prop} {E E' : Env → Prop} {Γ : Term → Prop} {F : Term} (hR : ∀ d, R d → R' d) (hE : ∀ e, E e → E' e)
    (h : Derives R E Γ F) : Derives R' E' Γ F := by
  induction h with
  | hyp Γ F h => exact .hyp _ _ h
  | rule Γ d env ctx ps F h1 h2 h3 h4 _ ih => exact .rule _ d env ctx ps F (hR _ h1) h2 (hE _ h3) h4 ih
  | discharge Γ d q env ctx ps F h1 h2 h3 h4 _ ih => exact .discharge _ d q env ctx ps F (hR _ h1) h2 (hE _ h3) h4 ih

theorem orderly_prefix {e1 e2 : List Event} {st0 : State} (H : Orderly b n (e1 ++ e2) st0) : Orderly b n e1 st0 where
  reset h := H.reset (by simp [h])
  push k s h := H.push k s (at_append h)
  pop k s h := H.pop k s (at_append h)
  consts k ty s h := H.consts k ty s (at_append h)
  program x ps args ret cs s h := H.program x ps args ret cs s (at_append h)
  closed e s s' x F h := H.closed e s s' x F (at_append h)
  args s r h1 h2 := H.args s r (by simp [h1]) (by simp [h2])
  nullary s r h1 h2 := H.nullary s r (by simp [h1]) (by simp [h2])

theorem at_split {es : List Event} {st0 s : State} {e : Event} (h : At b n es st0 e s) : ∃ e1 e2, es = e1 ++ e :: e2 ∧ replay b n e1 st0 = .ok s := by
  induction h with
  | head e es st => exact ⟨[], es, rfl, rfl⟩
  | tail e es st s1 e' s2 h1 _ ih =>
    obtain ⟨e1, e2, rfl, h2⟩ := ih
    exact ⟨e :: e1, e2, rfl, by simp only [replay, Run.bind_ok]; exact ⟨s1, h1, h2⟩⟩

/-- **C37** at every point of an orderly run: whatever a name proves after a command is derived with the declared rules from the formulas assumed in
the run and from the hypotheses that are open there. -/
theorem C37_everywhere_partial (hb : BaseOk b n0) (H : Orderly b n es (State.init b n0)) {e : Event} {s s' : State} (h : At b n es (State.init b n0) e s)
    (hs : replayEvent b n s e = .ok s') {x : Name} {F : Term} (hx : s'.scope.get x = some (.node PROOF [F])) :
    Derives (RuleOf b n es (State.init b n0)) (EnvOf b n es (State.init b n0)) (fun G => Assumed b n es (State.init b n0) G ∨ OpenHyp s' G) F := by
  obtain ⟨e1, e2, rfl, hr⟩ := at_split h
  have hE : e1 ++ e :: e2 = (e1 ++ [e]) ++ e2 := by simp
  rw [hE] at H ⊢
  have hr' : replay b n (e1 ++ [e]) (State.init b n0) = .ok s' := by
    rw [replay_append, hr]
    simp only [Run.bind, replay, hs]
  refine Derives.mono ?_ (Derives.more ?_ ?_ (C37_open_partial hb (orderly_prefix H) hr' hx))
  · rintro G (⟨y, f, s1, s2, h1, h2⟩ | h1)
    · exact .inl ⟨y, f, s1, s2, at_append h1, h2⟩
    · exact .inr h1
  · rintro d ⟨r, s1, h1, h2⟩
    exact ⟨r, s1, at_append h1, h2⟩
  · rintro env ⟨e', s1, mark, h1, h2⟩
    exact ⟨e', s1, mark, at_append h1, h2⟩

/-- **C37** for runs of the program on its arguments and on the texts of the files: the commands written in the files are executed in order; if they
are an orderly run, every formula that a name proves after a command is derived with the rules declared in the files from the formulas assumed there and
the open hypotheses; and with the verdict `correct` no step in them uses a rule declared with `:sorry`. -/
theorem C37_program_partial {sg tracing tty : Bool} {fs : Name → Option (List Nat)} {stdin : List Nat} {d : Nat} (hb : BaseOk b n0)
    (hg : ∀ f text, fs f = some text → GoodText sg false text) (hi : GoodText sg true stdin) {args : List Name} {r : Response}
    (h : program b n tracing sg tty fs stdin d args (State.init b n0) = .ok (.response r)) :
    ∃ is i fs' i' evs inc st', Line is args ∧ InputOf is tty stdin i ∧ InputIs sg i i' ∧ (∀ f cs, fs' f = some cs → WrittenIn sg fs f cs) ∧
      Spec.Reads fs' false [] (mainCmds ((includesOf is).map fun p => (includePath [] p.1, p.2)) i') evs inc ∧ replay b n evs (State.init b n0) = .ok st' ∧
      (Orderly b n evs (State.init b n0) → ∀ e s s' x F, At b n evs (State.init b n0) e s → replayEvent b n s e = .ok s' →
        s'.scope.get x = some (.node PROOF [F]) →
        Derives (RuleOf b n evs (State.init b n0)) (EnvOf b n evs (State.init b n0)) (fun G => Assumed b n evs (State.init b n0) G ∨ OpenHyp s' G) F) ∧
      (r = .correct → ∀ s R, .cmd (.step s) ∈ evs → .cmd (.declareRule R) ∈ evs → R.name = s.rule → R.sry = false) := by
  obtain ⟨is, i, fs', i', evs, inc, st', h1, h2, h3, h4, h5, h6, _, h7⟩ := C70_verdict hg hi h
  refine ⟨is, i, fs', i', evs, inc, st', h1, h2, h3, h4, h5, h6, fun H e s s' x F ha hs hx => C37_everywhere_partial hb H ha hs hx, ?_⟩
  intro hr s R hs hR hn
  cases hc : R.sry with
  | false => rfl
  | true => exact absurd ⟨s, R, hs, hR, hn, hc⟩ (h7.1 hr)

/-- C37: inside the scope of the assumption `p`, the step with modus ponens has derived `q` from the open hypothesis and the assumed implication -/
example : ∃ st, replay exB 10 ((mpCmds ++ [Cmd.step mpStep]).map Event.cmd) (State.init exB 10) = .ok st ∧
    Derives (RuleOf exB 10 (introCmds.map .cmd) (State.init exB 10)) (EnvOf exB 10 (introCmds.map .cmd) (State.init exB 10))
      (fun G => Assumed exB 10 (introCmds.map .cmd) (State.init exB 10) G ∨ OpenHyp st G) (.sym CONST 12) := by
  obtain ⟨s, s', h1, h2, h3⟩ := exStep (cmds := mpCmds) (s := mpStep) (r := some (.node PROOF [.sym CONST 12])) (by decide +kernel)
  refine ⟨s', ?_, C37_everywhere_partial exB_ok intro_orderly (e := .cmd (.step mpStep)) (s := s) ?_ h2 h3⟩
  · have h1' : replay exB 10 (mpCmds.map .cmd) (State.init exB 10) = .ok s := h1
    rw [List.map_append, List.map_cons, List.map_nil, replay_append, h1']
    simp only [Run.bind, replay]
    exact (congrArg (fun r : Run State => r.bind fun st => .ok st) h2)
  · exact at_of_replay (mpCmds.map .cmd) _ _ h1

/-- C37: the run of the program on texts; the commands written in the files are executed and no rule is a `:sorry` -/
example : ∃ evs st', replay exB 10 evs (State.init exB 10) = .ok st' ∧
    ∀ s R, .cmd (.step s) ∈ evs → .cmd (.declareRule R) ∈ evs → R.name = s.rule → R.sry = false := by
  obtain ⟨_, _, _, _, evs, _, st', _, _, _, _, _, h, _, h'⟩ :=
    C37_program_partial exB_ok proofFiles_good (goodText_of (by simp) (by decide +kernel)) program_accepted
  exact ⟨evs, st', h, h' rfl⟩

end Ethos.Props
