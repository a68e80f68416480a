import Verif.Lemmas.CommandLine
import Verif.Props.TextRun
/-
C70: the command line.
-/
namespace Ethos.Props
open Ethos Spec

variable {b : Env} {n : Nat} {tracing sg tty : Bool} {fs : Name → Option (List Nat)} {stdin : List Nat} {d : Nat}

/-- **C70**: the arguments ask for a run exactly if they are items none of which stops the program.  Every option then has the last value given
for it, wherever it is given, the files are included in the order in which they are given, and the input is the only other argument. -/
theorem C70_run {args : List Name} {o : Options} {inc : List (Name × Bool)} {file : Option Name} :
    argLoop tracing args {} [] none = .ok (.run o inc file) ↔
    ∃ is, Line is args ∧ Goes tracing is ∧ (∀ x : Opt, x.of o = value x is) ∧ inc = includesOf is ∧ file = (filesOf is).head? := by
  have h := loop_run (tracing := tracing) args (({}, [], none) : Seen) (o, inc, file)
  simp only [loopFrom] at h
  rw [h]
  constructor
  · rintro ⟨is, h1, h2⟩
    have hg := (applyItems_some is {}).1 (by rw [h2]; rfl)
    obtain ⟨_, h3, h4, h5⟩ := (applyItems_iff is _ _).1 h2
    refine ⟨is, h1, hg, fun x => ?_, by simpa using h4, ?_⟩
    · rw [h3 x]
      cases x <;> rfl
    · simp only [Option.toList_none, List.nil_append] at h5
      rw [h5]
      cases file <;> rfl
  · rintro ⟨is, h1, hg, h3, h4, h5⟩
    refine ⟨is, h1, (applyItems_iff is _ _).2 ⟨⟨hg.1, hg.2.1, hg.2.2.1⟩, fun x => ?_, by simpa using h4, ?_⟩⟩
    · show x.of o = _
      rw [h3 x]
      cases x <;> rfl
    · have hl := hg.2.2.2
      simp only [Option.toList_none, List.nil_append]
      rw [h5]
      match hf : filesOf is with
      | [] => rfl
      | [_] => rfl
      | _ :: _ :: _ => rw [hf] at hl; simp at hl

/-- **C70**: a message is printed, and nothing else is done, exactly if one is asked for before anything that stops the program; what comes
after is not looked at. -/
theorem C70_help {args : List Name} :
    argLoop tracing args {} [] none = .ok .help ↔ ∃ is ws rest, args = ws ++ bytes "--help" :: rest ∧ Line is ws ∧ Goes tracing is := by
  have h := loop_message (tracing := tracing) (.inl ⟨rfl, rfl⟩) .help args (({}, [], none) : Seen)
  simp only [applyItems_some] at h
  exact h

theorem C70_config {args : List Name} :
    argLoop tracing args {} [] none = .ok .config ↔ ∃ is ws rest, args = ws ++ bytes "--show-config" :: rest ∧ Line is ws ∧ Goes tracing is := by
  have h := loop_message (tracing := tracing) (.inr ⟨rfl, rfl⟩) .config args (({}, [], none) : Seen)
  simp only [applyItems_some] at h
  exact h

/-- **C70**: the arguments can be read in one way only. -/
theorem C70_unique {args : List Name} : ∀ {is js : List Item}, Line is args → Line js args → is = js := by
  induction args using line_induct with
  | hnil =>
    have : ∀ is, Line is [] → is = [] := by
      intro is h
      generalize he : ([] : List Name) = l at h
      cases h with
      | nil => rfl
      | marked i is w ws hm hl => cases hm <;> simp at he
      | file f is ws hf hl => cases he
    intro is js h1 h2
    rw [this _ h1, this _ h2]
  | htag => intro is js h; exact absurd h line_tag
  | hm i w ws hm ih =>
    intro is js h1 h2
    obtain ⟨is, rfl, h3⟩ := line_marked_inv hm h1
    obtain ⟨js, rfl, h4⟩ := line_marked_inv hm h2
    rw [ih h3 h4]
  | hf f ws hf ih =>
    intro is js h1 h2
    obtain ⟨is, rfl, h3⟩ := line_file_inv hf h1
    obtain ⟨js, rfl, h4⟩ := line_file_inv hf h2
    rw [ih h3 h4]

/-- **C70**: in all other cases the program fails before it reads a file. -/
theorem C70_error {args : List Name} (st : State) (h1 : ∀ is, Line is args → ¬ Goes tracing is)
    (h2 : ∀ is ws rest, args = ws ++ bytes "--help" :: rest → Line is ws → ¬ Goes tracing is)
    (h3 : ∀ is ws rest, args = ws ++ bytes "--show-config" :: rest → Line is ws → ¬ Goes tracing is) :
    program b n tracing sg tty fs stdin d args st = .err := by
  have htot : ∀ (args : List Name) (s : Seen), loopFrom tracing args s = .err ∨ ∃ q, loopFrom tracing args s = .ok q := by
    intro args
    have hstep : ∀ (i : Item) (s : Seen) (rest : Seen → Run Request), (∀ s, rest s = .err ∨ ∃ q, rest s = .ok q) →
        answer tracing s rest i = .err ∨ ∃ q, answer tracing s rest i = .ok q := by
      intro i s rest hr
      have hgo : ∀ (x : Option Seen) (y : Run Request), y = (match x with | some s => rest s | none => .err) → y = .err ∨ ∃ q, y = .ok q := by
        rintro x y rfl
        cases x with
        | none => exact .inl rfl
        | some s => exact hr s
      cases i with
      | help => exact .inr ⟨_, rfl⟩
      | config => exact .inr ⟨_, rfl⟩
      | set x v => exact hgo (some _) _ rfl
      | incl f => exact hgo (some _) _ rfl
      | reference f => exact hgo (some _) _ rfl
      | _ => exact hgo _ _ rfl
    induction args using line_induct with
    | hnil => intro s; exact .inr ⟨_, by simp [loopFrom, argLoop]; rfl⟩
    | htag =>
      intro s
      left
      simp [loopFrom, argLoop_cons, argOption, startsWith, bytes]
    | hm i w ws hm ih => intro s; rw [loop_marked hm]; exact hstep i s _ ih
    | hf f ws hf ih => intro s; rw [loop_file hf]; exact hstep _ s _ ih
  have hq := htot args (({}, [], none) : Seen)
  simp only [loopFrom] at hq
  rcases hq with h | ⟨q, h⟩
  · simp [program, h, Run.bind]
  · exfalso
    cases q with
    | help =>
      obtain ⟨is, ws, rest, e1, e2, e3⟩ := C70_help.1 h
      exact h2 is ws rest e1 e2 e3
    | config =>
      obtain ⟨is, ws, rest, e1, e2, e3⟩ := C70_config.1 h
      exact h3 is ws rest e1 e2 e3
    | run o inc file =>
      obtain ⟨is, e1, e2, _⟩ := C70_run.1 h
      exact h1 is e1 e2

/-- **C70**: the program responds exactly if its arguments are fine, the files that are given by `--include` and `--reference` can be read, one
after the other and under the options in force, and then the input can; the response is that of the run. -/
theorem C70_program (hg : ∀ f text, fs f = some text → GoodText sg false text) (hi : GoodText sg true stdin) {args : List Name} {st : State} {r : Response} :
    program b n tracing sg tty fs stdin d args st = .ok (.response r) ↔
    ∃ is i, Line is args ∧ Goes tracing is ∧ value .ruleSymTable is = true ∧ InputOf is tty stdin i ∧
      ∃ o o1 st1 o2 st', (o.parseLet = value .parseLet is ∧ o.normNum = value .normNum is ∧ o.normDec = value .normDec is ∧ o.normHex = value .normHex is) ∧
        IncludedAll (fun f ref => Included b n sg fs d [] f (!ref) ref none) (includesOf is) o st o1 st1 ∧ InputRun b n sg fs d i o1 st1 o2 st' ∧
        r = st'.response := by
  have key : ∀ (inc : List (Name × Bool)) (i : TextInput) (o : TextOpts), (∀ s, i = .stdin s → GoodText sg true s) →
      (((includeTexts b n sg fs d inc o st).bind fun p => (runTextInput b n sg fs d i p.1 p.2).map fun p => Printed.response p.2.response) = .ok (.response r) ↔
        ∃ o1 st1 o2 st', IncludedAll (fun f ref => Included b n sg fs d [] f (!ref) ref none) inc o st o1 st1 ∧ InputRun b n sg fs d i o1 st1 o2 st' ∧ r = st'.response) := by
    intro inc i o hi
    have h := fun st' => C68_main (b := b) (n := n) hg (d := d) (fr := inc) hi (o := o) (st := st) (st' := st') (r := r)
    simp only [mainText, Run.bind_ok, Run.map_ok] at h ⊢
    constructor
    · rintro ⟨p, h1, q, h2, h3⟩
      have hr : q.2.response = r := by cases h3; rfl
      obtain ⟨o1, st1, o2, e1, e2, e3⟩ := (h q.2).1 ⟨p, h1, q, h2, by rw [hr]⟩
      exact ⟨o1, st1, o2, q.2, e1, e2, e3⟩
    · rintro ⟨o1, st1, o2, st', e1, e2, e3⟩
      obtain ⟨p, h1, q, h2, h3⟩ := (h st').2 ⟨o1, st1, o2, e1, e2, e3⟩
      have hr : q.2.response = r := by cases h3; rfl
      exact ⟨p, h1, q, h2, by rw [hr]⟩
  have hfile : ∀ {is : List Item} {f : Name}, .file f ∈ is → f ∈ filesOf is := by
    intro is f h
    exact List.mem_filterMap.2 ⟨_, h, rfl⟩
  constructor
  · intro h
    simp only [program, Run.bind_ok] at h
    obtain ⟨q, h1, h2⟩ := h
    cases q with
    | help => cases h2
    | config => cases h2
    | run o inc file =>
      obtain ⟨is, e1, e2, e3, rfl, e5⟩ := C70_run.1 h1
      dsimp only at h2
      have hrs := e3 .ruleSymTable
      simp only [Opt.of] at hrs
      cases hv : value .ruleSymTable is with
      | false => rw [hrs, hv] at h2; cases h2
      | true =>
      rw [hrs, hv] at h2
      simp only [Bool.not_true, Bool.false_eq_true, if_false] at h2
      cases file with
      | none =>
        have hf : filesOf is = [] := by simpa using e5.symm
        cases tty with
        | true =>
          simp only [if_true] at h2
          cases h3 : includeTexts b n sg fs d (includesOf is) o.text st <;> rw [h3] at h2 <;> cases h2
        | false =>
          simp only [Bool.false_eq_true, if_false] at h2
          obtain ⟨o1, st1, o2, st', g⟩ := (key _ (.stdin stdin) _ (fun s hs => by cases hs; exact hi)).1 h2
          exact ⟨is, _, e1, e2, hv, .inr ⟨hf, rfl, rfl⟩, o.text, o1, st1, o2, st', ⟨e3 .parseLet, e3 .normNum, e3 .normDec, e3 .normHex⟩, g⟩
      | some f =>
        have hf : .file f ∈ is := by
          have : f ∈ filesOf is := List.mem_of_mem_head? (by rw [← e5]; rfl)
          obtain ⟨i, h3, h4⟩ := List.mem_filterMap.1 this
          cases i <;> simp at h4
          subst h4
          exact h3
        obtain ⟨o1, st1, o2, st', g⟩ := (key _ (.file f) _ (fun s hs => by cases hs)).1 h2
        exact ⟨is, _, e1, e2, hv, .inl ⟨f, hf, rfl⟩, o.text, o1, st1, o2, st', ⟨e3 .parseLet, e3 .normNum, e3 .normDec, e3 .normHex⟩, g⟩
  · rintro ⟨is, i, e1, e2, hv, hin, o, o1, st1, o2, st', ⟨g1, g2, g3, g4⟩, g⟩
    obtain ⟨O, hO⟩ : ∃ O : Options, ∀ x : Opt, x.of O = value x is :=
      ⟨⟨value .parseLet is, value .printDag is, value .stats is, value .statsAll is, value .statsCompact is, value .ruleSymTable is, value .normDec is,
        value .normHex is, value .normNum is⟩, fun x => by cases x <;> rfl⟩
    have ho : O.text = o := by
      have := hO .parseLet; have := hO .normNum; have := hO .normDec; have := hO .normHex
      cases o
      simp_all [Options.text, Opt.of]
    have hl := C70_run.2 ⟨is, e1, e2, hO, rfl, rfl⟩
    simp only [program, Run.bind_ok]
    refine ⟨_, hl, ?_⟩
    dsimp only
    have hrs := hO .ruleSymTable
    simp only [Opt.of] at hrs
    rw [ho, hrs, hv]
    simp only [Bool.not_true, Bool.false_eq_true, if_false]
    rcases hin with ⟨f, hf, rfl⟩ | ⟨hf, rfl, rfl⟩
    · have hh : (filesOf is).head? = some f := by
        have h1 := hfile hf
        have h2 := e2.2.2.2
        match h3 : filesOf is with
        | [] => rw [h3] at h1; cases h1
        | [x] => rw [h3] at h1; simp at h1; simp [h1]
        | _ :: _ :: _ => rw [h3] at h2; simp at h2
      rw [hh]
      exact (key _ (.file f) _ (fun s hs => by cases hs)).2 ⟨o1, st1, o2, st', g⟩
    · rw [hf]
      simp only [List.head?_nil]
      exact (key _ (.stdin stdin) _ (fun s hs => by cases hs; exact hi)).2 ⟨o1, st1, o2, st', g⟩

/-- **C70**: the program prints `incomplete` if a step that is written in the texts of the files uses a rule that is declared there with `:sorry`,
and `correct` otherwise. -/
theorem C70_verdict (hg : ∀ f text, fs f = some text → GoodText sg false text) (hi : GoodText sg true stdin) {args : List Name} {n0 : Nat} {r : Response}
    (h : program b n tracing sg tty fs stdin d args (State.init b n0) = .ok (.response r)) :
    ∃ is i fs' i' evs inc st', Line is args ∧ InputOf is tty stdin i ∧ InputIs sg i i' ∧ (∀ f cs, fs' f = some cs → WrittenIn sg fs f cs) ∧
      Spec.Reads fs' false [] (mainCmds ((includesOf is).map fun p => (includePath [] p.1, p.2)) i') evs inc ∧ replay b n evs (State.init b n0) = .ok st' ∧
      (r = .incomplete ↔ ∃ s R, .cmd (.step s) ∈ evs ∧ .cmd (.declareRule R) ∈ evs ∧ R.name = s.rule ∧ R.sry = true) ∧
      (r = .correct ↔ ¬ ∃ s R, .cmd (.step s) ∈ evs ∧ .cmd (.declareRule R) ∈ evs ∧ R.name = s.rule ∧ R.sry = true) := by
  obtain ⟨is, i, h1, _, _, h2, o, o1, st1, o2, st', _, h3⟩ := (C70_program hg hi).1 h
  have hi' : ∀ s, i = .stdin s → GoodText sg true s := by
    rintro s rfl
    rcases h2 with ⟨f, _, h⟩ | ⟨_, _, h⟩
    · cases h
    · cases h; exact hi
  obtain ⟨fs', i', evs, inc, g⟩ := C68_verdict hg hi' ((C68_main hg hi').2 ⟨o1, st1, o2, h3⟩)
  exact ⟨is, i, fs', i', evs, inc, st', h1, h2, g⟩

/-! ### Examples -/

/-- `ethos --no-parse-let --include=a.eo --parse-let --normalize-num --reference=r.smt2 p.smt3 --stats-all --no-stats-all` -/
def lineArgs : List Name := [bytes "--no-parse-let", bytes "--include=a.eo", bytes "--parse-let", bytes "--normalize-num", bytes "--reference=r.smt2", bytes "p.smt3",
  bytes "--stats-all", bytes "--no-stats-all"]
def lineItems : List Item := [.set .parseLet false, .incl (bytes "a.eo"), .set .parseLet true, .set .normNum true, .reference (bytes "r.smt2"), .file (bytes "p.smt3"),
  .set .statsAll true, .set .statsAll false]

theorem not_marked {f : Name} {c e : Nat} {s : List Nat} (h : f = c :: e :: s) (hc : c ≠ 45) : ∀ i w, ¬ Marked i (f :: w) := by
  intro i w hm
  subst h
  cases hm <;> exact hc rfl

theorem lineArgs_line : Line lineItems lineArgs :=
  .marked _ _ _ _ (.off .parseLet) (.marked _ _ _ _ (.incl (bytes "a.eo")) (.marked _ _ _ _ (.on .parseLet) (.marked _ _ _ _ (.on .normNum)
    (.marked _ _ _ _ (.reference (bytes "r.smt2")) (.file _ _ _ (not_marked (f := bytes "p.smt3") rfl (by decide))
      (.marked _ _ _ _ (.on .statsAll) (.marked _ _ _ _ (.off .statsAll) .nil)))))))

theorem lineItems_goes : Goes false lineItems := by
  refine ⟨by decide, by decide, fun _ => ⟨by decide, fun tag => by simp [lineItems]⟩, by decide⟩

-- the options in force are the last ones given; the statistics stay on
example : ∃ o, argLoop false lineArgs {} [] none = .ok (.run o [(bytes "a.eo", false), (bytes "r.smt2", true)] (some (bytes "p.smt3"))) ∧
    o = { normNum := true, stats := true } := by
  obtain ⟨O, hO⟩ : ∃ O : Options, O = { normNum := true, stats := true } := ⟨_, rfl⟩
  refine ⟨O, C70_run.2 ⟨lineItems, lineArgs_line, lineItems_goes, fun x => ?_, rfl, rfl⟩, hO⟩
  subst hO
  cases x <;> decide
example : argLoop true [bytes "-v", bytes "-t", bytes "step", bytes "--help", bytes "-t"] {} [] none = .ok .help := by decide +kernel
example : argLoop false [bytes "--no-stats", bytes "-v", bytes "--help"] {} [] none = .err := by decide +kernel
example : argLoop true [bytes "a.eo", bytes "--include=b.eo", bytes "-t"] {} [] none = .err := by decide +kernel

-- a run of the program, from the arguments to the response
theorem program_accepted : program exB 10 false true true proofFiles [] 3 [bytes "--no-normalize-dec", bytes "d/p.smt3"] (State.init exB 10) =
    .ok (.response .correct) := by decide +kernel

example : ∃ is i, Line is [bytes "--no-normalize-dec", bytes "d/p.smt3"] ∧ Goes false is ∧ InputOf is true [] i := by
  obtain ⟨is, i, h1, h2, _, h3, _⟩ := (C70_program proofFiles_good (goodText_of (by simp) (by decide +kernel))).1 program_accepted
  exact ⟨is, i, h1, h2, h3⟩

/-- **C70**: without an input the program stops with an error if there is nobody to write one, after the files to include were read. -/
theorem C70_terminal {args : List Name} {is : List Item} {st : State} (hl : Line is args) (hg : Goes tracing is) (hr : value .ruleSymTable is = true) (hf : filesOf is = []) :
    (includesOf is = [] → program b n tracing sg true fs stdin d args st = .err) ∧ ∀ r, program b n tracing sg true fs stdin d args st ≠ .ok (.response r) := by
  obtain ⟨⟨o, inc, file⟩, hs⟩ := Option.isSome_iff_exists.1 ((applyItems_some (tracing := tracing) is {}).2 hg)
  have hq : argLoop tracing args {} [] none = .ok (.run o inc file) := (loop_run args (({}, [], none) : Seen) (o, inc, file)).2 ⟨is, hl, hs⟩
  obtain ⟨js, h1, _, h3, h4, h5⟩ := C70_run.1 hq
  obtain rfl := C70_unique hl h1
  have ho : o.ruleSymTable = true := by rw [← hr]; exact h3 .ruleSymTable
  rw [hf] at h5
  cases h5
  simp only [program, hq, Run.bind, ho, Bool.not_true, Bool.false_eq_true, if_false, if_true]
  constructor
  · intro he
    rw [he] at h4
    rw [h4]
    rfl
  · intro r
    cases includeTexts b n sg fs d inc o.text st <;> simp
example : program exB 10 false true true proofFiles [] 3 [bytes "--no-normalize-dec"] (State.init exB 10) = .err := by decide +kernel

/-- Options that do not exist are not always rejected: a single one is taken for the name of the input, also if it begins with `--`. -/
theorem C70_unknown_refuted : argLoop false [bytes "--normalise-num"] {} [] none = .ok (.run {} [] (some (bytes "--normalise-num"))) ∧
    argLoop false [bytes "--normalise-num", bytes "p.smt3"] {} [] none = .err := by decide +kernel

/-- **C70**: the options for reading are, at the start, those of a run without arguments, and `set-option` in a file changes them like an argument of the
command line does -/
theorem C70_reading : ({} : Options).text = ({} : TextOpts) ∧ ∀ (o : Options) (k : Name) (v : Bool), ((o.setOption k v).getD o).text = o.text.set k v := by
  refine ⟨rfl, fun o k v => ?_⟩
  have ne : ∀ {a c : Name}, a ≠ c → k = a → k ≠ c := fun h h1 h2 => h (h1.symm.trans h2)
  simp only [Options.setOption, TextOpts.set]
  by_cases h1 : k = bytes "parse-let"
  · simp only [h1, if_true]; rfl
  by_cases h2 : k = bytes "print-dag"
  · subst h2; rfl
  by_cases h3 : k = bytes "stats"
  · subst h3; rfl
  by_cases h4 : k = bytes "stats-all"
  · subst h4; rfl
  by_cases h5 : k = bytes "stats-compact"
  · subst h5; rfl
  by_cases h6 : k = bytes "rule-sym-table"
  · subst h6; rfl
  simp only [h1, h2, h3, h4, h5, h6, if_false]
  by_cases h7 : k = bytes "normalize-dec"
  · simp only [h7, if_true]; rfl
  by_cases h8 : k = bytes "normalize-num"
  · simp only [h7, h8, if_true, if_false]; rfl
  by_cases h9 : k = bytes "normalize-hex"
  · simp only [h7, h8, h9, if_true, if_false]; rfl
  simp only [h7, h8, h9, if_false]; rfl

end Ethos.Props
