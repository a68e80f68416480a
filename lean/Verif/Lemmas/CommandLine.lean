import Verif.Spec.CommandLine
/-
Lemmas on the arguments of the program.
-/
namespace Ethos.Props
open Ethos Spec

/-- the effect of an item on the options, files and the input file -/
def setOpt (o : Options) : Opt → Bool → Options
  | .parseLet, v => { o with parseLet := v }
  | .printDag, v => { o with printDag := v }
  | .stats, v => { o with stats := v }
  | .statsAll, v => { o with stats := if v then true else o.stats, statsAll := v }
  | .statsCompact, v => { o with stats := if v then true else o.stats, statsCompact := v }
  | .ruleSymTable, v => { o with ruleSymTable := v }
  | .normDec, v => { o with normDec := v }
  | .normNum, v => { o with normNum := v }
  | .normHex, v => { o with normHex := v }

theorem setOption_name (o : Options) (x : Opt) (v : Bool) : o.setOption x.name v = some (setOpt o x v) := by
  cases x <;> rfl

theorem setOption_some {o o' : Options} {key : Name} {v : Bool} (h : o.setOption key v = some o') : ∃ x : Opt, key = x.name ∧ o' = setOpt o x v := by
  simp only [Options.setOption] at h
  by_cases h1 : key = bytes "parse-let"
  · rw [if_pos h1] at h; exact ⟨.parseLet, h1, (Option.some.inj h).symm⟩
  rw [if_neg h1] at h
  by_cases h1 : key = bytes "print-dag"
  · rw [if_pos h1] at h; exact ⟨.printDag, h1, (Option.some.inj h).symm⟩
  rw [if_neg h1] at h
  by_cases h1 : key = bytes "stats"
  · rw [if_pos h1] at h; exact ⟨.stats, h1, (Option.some.inj h).symm⟩
  rw [if_neg h1] at h
  by_cases h1 : key = bytes "stats-all"
  · rw [if_pos h1] at h; exact ⟨.statsAll, h1, (Option.some.inj h).symm⟩
  rw [if_neg h1] at h
  by_cases h1 : key = bytes "stats-compact"
  · rw [if_pos h1] at h; exact ⟨.statsCompact, h1, (Option.some.inj h).symm⟩
  rw [if_neg h1] at h
  by_cases h1 : key = bytes "rule-sym-table"
  · rw [if_pos h1] at h; exact ⟨.ruleSymTable, h1, (Option.some.inj h).symm⟩
  rw [if_neg h1] at h
  by_cases h1 : key = bytes "normalize-dec"
  · rw [if_pos h1] at h; exact ⟨.normDec, h1, (Option.some.inj h).symm⟩
  rw [if_neg h1] at h
  by_cases h1 : key = bytes "normalize-num"
  · rw [if_pos h1] at h; exact ⟨.normNum, h1, (Option.some.inj h).symm⟩
  rw [if_neg h1] at h
  by_cases h1 : key = bytes "normalize-hex"
  · rw [if_pos h1] at h; exact ⟨.normHex, h1, (Option.some.inj h).symm⟩
  rw [if_neg h1] at h
  cases h

theorem startsWith_iff {p arg : Name} : startsWith p arg = true ↔ ∃ s, arg = p ++ s := by
  simp only [startsWith, decide_eq_true_eq]
  constructor
  · intro h
    exact ⟨arg.drop p.length, by conv => lhs; rw [← List.take_append_drop p.length arg, h]⟩
  · rintro ⟨s, rfl⟩
    simp

theorem argOption_on (o : Options) (x : Opt) : argOption o (bytes "--" ++ x.name) = some (setOpt o x true) := by
  cases x <;> rfl

theorem argOption_off (o : Options) (x : Opt) : argOption o (bytes "--no-" ++ x.name) = some (setOpt o x false) := by
  cases x <;> rfl

theorem argOption_some {o o' : Options} {arg : Name} (h : argOption o arg = some o') : ∃ x v, Marked (.set x v) [arg] ∧ o' = setOpt o x v := by
  simp only [argOption] at h
  by_cases h1 : startsWith (bytes "--no-") arg = true
  · rw [if_pos h1] at h
    obtain ⟨s, rfl⟩ := startsWith_iff.1 h1
    obtain ⟨x, h2, rfl⟩ := setOption_some h
    have : s = x.name := by rw [← h2]; simp [bytes]
    subst this
    exact ⟨x, false, .off x, rfl⟩
  · rw [if_neg h1] at h
    by_cases h2 : startsWith (bytes "--") arg = true
    · rw [if_pos h2] at h
      obtain ⟨s, rfl⟩ := startsWith_iff.1 h2
      obtain ⟨x, h3, rfl⟩ := setOption_some h
      have : s = x.name := by rw [← h3]; simp [bytes]
      subst this
      exact ⟨x, true, .on x, rfl⟩
    · rw [if_neg h2] at h
      cases h

theorem argOption_none {o : Options} {arg : Name} (h : argOption o arg = none) (x : Opt) (v : Bool) (w : List Name) : ¬ Marked (.set x v) (arg :: w) := by
  intro hm
  cases hm with
  | on => rw [argOption_on] at h; cases h
  | off => rw [argOption_off] at h; cases h

theorem argOption_incl (o : Options) (f : Name) : argOption o (bytes "--include=" ++ f) = none := rfl
theorem argOption_ref (o : Options) (f : Name) : argOption o (bytes "--reference=" ++ f) = none := rfl

/-- the state of the loop over the arguments -/
abbrev Seen := Options × List (Name × Bool) × Option Name

/-- the effect of an item, if it does not stop the program -/
def applyItem (tracing : Bool) (s : Seen) : Item → Option Seen
  | .set x v => some (setOpt s.1 x v, s.2)
  | .incl f => some (s.1, s.2.1 ++ [(f, false)], s.2.2)
  | .reference f => some (s.1, s.2.1 ++ [(f, true)], s.2.2)
  | .help => none
  | .config => none
  | .trace _ => if tracing then some s else none
  | .verbose => if tracing then some s else none
  | .file f => match s.2.2 with
    | none => some (s.1, s.2.1, some f)
    | some _ => none

def applyItems (tracing : Bool) : List Item → Seen → Option Seen
  | [], s => some s
  | i :: is, s => (applyItem tracing s i).bind (applyItems tracing is)

def loopFrom (tracing : Bool) (args : List Name) (s : Seen) : Run Request := argLoop tracing args s.1 s.2.1 s.2.2

/-- what the program does with an item before it looks at the other arguments -/
def answer (tracing : Bool) (s : Seen) (rest : Seen → Run Request) : Item → Run Request
  | .help => .ok .help
  | .config => .ok .config
  | i => match applyItem tracing s i with
    | some s => rest s
    | none => .err

theorem argLoop_cons (tracing : Bool) (arg : Name) (args : List Name) (o : Options) (includes : List (Name × Bool)) (file : Option Name) :
    argLoop tracing (arg :: args) o includes file =
    match argOption o arg with
    | some o => argLoop tracing args o includes file
    | none =>
      if startsWith (bytes "--include=") arg then argLoop tracing args o (includes ++ [(afterEq arg, false)]) file
      else if startsWith (bytes "--reference=") arg then argLoop tracing args o (includes ++ [(afterEq arg, true)]) file
      else if arg = bytes "--help" then .ok .help
      else if arg = bytes "--show-config" then .ok .config
      else if arg = bytes "-t" then
        match args with
        | [] => .err
        | _ :: args => if tracing then argLoop tracing args o includes file else .err
      else if arg = bytes "-v" then if tracing then argLoop tracing args o includes file else .err
      else
        match file with
        | none => argLoop tracing args o includes (some arg)
        | some _ => .err := by
  refine (argLoop.eq_def tracing (arg :: args) o includes file).trans ?_
  cases args <;> cases file <;> rfl

theorem loop_marked {tracing : Bool} {i : Item} {w : List Name} (h : Marked i w) (ws : List Name) (s : Seen) :
    loopFrom tracing (w ++ ws) s = answer tracing s (loopFrom tracing ws) i := by
  obtain ⟨o, inc, file⟩ := s
  cases h with
  | on x => simp only [loopFrom, List.cons_append, List.nil_append, argLoop_cons]; rw [argOption_on]; rfl
  | off x => simp only [loopFrom, List.cons_append, List.nil_append, argLoop_cons]; rw [argOption_off]; rfl
  | incl f =>
    simp only [loopFrom, List.cons_append, List.nil_append, argLoop_cons]
    rw [argOption_incl]
    rfl
  | reference f =>
    simp only [loopFrom, List.cons_append, List.nil_append, argLoop_cons]
    rw [argOption_ref]
    rfl
  | help => simp only [loopFrom, List.cons_append, List.nil_append, argLoop_cons]; rfl
  | config => simp only [loopFrom, List.cons_append, List.nil_append, argLoop_cons]; rfl
  | trace tag => simp only [loopFrom, List.cons_append, List.nil_append, argLoop_cons]; cases tracing <;> rfl
  | verbose => simp only [loopFrom, List.cons_append, List.nil_append, argLoop_cons]; cases tracing <;> rfl

theorem loop_file {tracing : Bool} {f : Name} (h : ∀ i w, ¬ Marked i (f :: w)) (ws : List Name) (s : Seen) :
    loopFrom tracing (f :: ws) s = answer tracing s (loopFrom tracing ws) (.file f) := by
  obtain ⟨o, inc, file⟩ := s
  simp only [loopFrom, argLoop_cons]
  cases h1 : argOption o f with
  | some o' =>
    obtain ⟨x, v, hm, _⟩ := argOption_some h1
    exact absurd hm (h _ _)
  | none =>
    have h2 : ¬ startsWith (bytes "--include=") f = true := fun hs => by
      obtain ⟨s, rfl⟩ := startsWith_iff.1 hs
      exact h _ _ (.incl s)
    have h3 : ¬ startsWith (bytes "--reference=") f = true := fun hs => by
      obtain ⟨s, rfl⟩ := startsWith_iff.1 hs
      exact h _ _ (.reference s)
    have h4 : f ≠ bytes "--help" := fun e => h .help [] (e ▸ .help)
    have h5 : f ≠ bytes "--show-config" := fun e => h .config [] (e ▸ .config)
    have h6 : f ≠ bytes "-t" := fun e => h (.trace []) [[]] (e ▸ .trace [])
    have h7 : f ≠ bytes "-v" := fun e => h .verbose [] (e ▸ .verbose)
    dsimp only
    rw [if_neg h2, if_neg h3, if_neg h4, if_neg h5, if_neg h6, if_neg h7]
    cases file <;> rfl

theorem args_cases (args : List Name) : args = [] ∨ args = [bytes "-t"] ∨ (∃ i w ws, Marked i w ∧ args = w ++ ws ∧ ws.length < args.length) ∨
    ∃ f ws, args = f :: ws ∧ ∀ i w, ¬ Marked i (f :: w) := by
  cases args with
  | nil => exact .inl rfl
  | cons f ws =>
    right
    by_cases h : ∃ i w, Marked i (f :: w)
    · obtain ⟨i, w, h⟩ := h
      generalize he : f :: w = l at h
      cases h with
      | trace tag =>
        cases he
        cases ws with
        | nil => exact .inl rfl
        | cons t ws => exact .inr (.inl ⟨.trace t, _, ws, .trace t, rfl, by simp; omega⟩)
      | on x => cases he; exact .inr (.inl ⟨_, _, ws, .on x, rfl, by simp⟩)
      | off x => cases he; exact .inr (.inl ⟨_, _, ws, .off x, rfl, by simp⟩)
      | incl x => cases he; exact .inr (.inl ⟨_, _, ws, .incl x, rfl, by simp⟩)
      | reference x => cases he; exact .inr (.inl ⟨_, _, ws, .reference x, rfl, by simp⟩)
      | help => cases he; exact .inr (.inl ⟨_, _, ws, .help, rfl, by simp⟩)
      | config => cases he; exact .inr (.inl ⟨_, _, ws, .config, rfl, by simp⟩)
      | verbose => cases he; exact .inr (.inl ⟨_, _, ws, .verbose, rfl, by simp⟩)
    · exact .inr (.inr ⟨f, ws, rfl, fun i w hm => h ⟨i, w, hm⟩⟩)

/-- the arguments determine the items -/
theorem marked_unique {i j : Item} {w v ws vs : List Name} (h1 : Marked i w) (h2 : Marked j v) (he : w ++ ws = v ++ vs) : i = j ∧ ws = vs := by
  have h := loop_marked (tracing := true) h1
  cases h1 with
  | on x =>
    cases h2 with
    | on y => cases x <;> cases y <;> simp_all [Opt.name, bytes]
    | off y => cases x <;> cases y <;> simp [Opt.name, bytes] at he
    | _ => cases x <;> simp [Opt.name, bytes] at he
  | off x =>
    cases h2 with
    | off y => cases x <;> cases y <;> simp_all [Opt.name, bytes]
    | on y => cases x <;> cases y <;> simp [Opt.name, bytes] at he
    | _ => cases x <;> simp [Opt.name, bytes] at he
  | incl f =>
    cases h2 with
    | on y => cases y <;> simp [Opt.name, bytes] at he
    | off y => cases y <;> simp [Opt.name, bytes] at he
    | incl g => simpa [bytes] using he
    | _ => simp [bytes] at he
  | reference f =>
    cases h2 with
    | on y => cases y <;> simp [Opt.name, bytes] at he
    | off y => cases y <;> simp [Opt.name, bytes] at he
    | reference g => simpa [bytes] using he
    | _ => simp [bytes] at he
  | help =>
    cases h2 with
    | on y => cases y <;> simp [Opt.name, bytes] at he
    | off y => cases y <;> simp [Opt.name, bytes] at he
    | help => exact ⟨rfl, by simpa using he⟩
    | _ => simp [bytes] at he
  | config =>
    cases h2 with
    | on y => cases y <;> simp [Opt.name, bytes] at he
    | off y => cases y <;> simp [Opt.name, bytes] at he
    | config => exact ⟨rfl, by simpa using he⟩
    | _ => simp [bytes] at he
  | trace tag =>
    cases h2 with
    | on y => cases y <;> simp [Opt.name, bytes] at he
    | off y => cases y <;> simp [Opt.name, bytes] at he
    | trace t => simpa [bytes] using he
    | _ => simp [bytes] at he
  | verbose =>
    cases h2 with
    | on y => cases y <;> simp [Opt.name, bytes] at he
    | off y => cases y <;> simp [Opt.name, bytes] at he
    | verbose => exact ⟨rfl, by simpa using he⟩
    | _ => simp [bytes] at he

theorem line_induct {motive : List Name → Prop} (hnil : motive []) (htag : motive [bytes "-t"]) (hm : ∀ i w ws, Marked i w → motive ws → motive (w ++ ws))
    (hf : ∀ f ws, (∀ i w, ¬ Marked i (f :: w)) → motive ws → motive (f :: ws)) : ∀ args, motive args := by
  intro args
  induction h : args.length using Nat.strongRecOn generalizing args with
  | ind n ih =>
    subst h
    rcases args_cases args with rfl | rfl | ⟨i, w, ws, h1, rfl, h2⟩ | ⟨f, ws, rfl, h1⟩
    · exact hnil
    · exact htag
    · exact hm i w ws h1 (ih _ h2 ws rfl)
    · exact hf f ws h1 (ih _ (by simp) ws rfl)

theorem line_tag {is : List Item} : ¬ Line is [bytes "-t"] := by
  intro h
  generalize he : [bytes "-t"] = l at h
  cases h with
  | nil => cases he
  | marked i is w ws hm hl =>
    have hw : Marked (.trace []) [bytes "-t", []] := .trace []
    cases hm with
    | on x => cases x <;> simp [Opt.name, bytes] at he
    | off x => cases x <;> simp [Opt.name, bytes] at he
    | trace t => simp at he
    | _ => simp [bytes] at he
  | file f is ws hf hl =>
    cases he
    exact hf _ _ (.trace [])

theorem line_marked_inv {is : List Item} {i : Item} {w ws : List Name} (hm : Marked i w) (h : Line is (w ++ ws)) : ∃ js, is = i :: js ∧ Line js ws := by
  generalize he : w ++ ws = l at h
  cases h with
  | nil => cases hm <;> simp at he
  | marked j js v vs hv hl =>
    obtain ⟨rfl, rfl⟩ := marked_unique hm hv he
    exact ⟨js, rfl, hl⟩
  | file f js vs hf hl =>
    cases w with
    | nil => cases hm
    | cons a w =>
      cases he
      exact absurd hm (hf _ _)

theorem line_file_inv {is : List Item} {f : Name} {ws : List Name} (hf : ∀ i w, ¬ Marked i (f :: w)) (h : Line is (f :: ws)) :
    ∃ js, is = .file f :: js ∧ Line js ws := by
  generalize he : f :: ws = l at h
  cases h with
  | nil => cases he
  | marked j js v vs hv hl =>
    cases v with
    | nil => cases hv
    | cons a v =>
      cases he
      exact absurd hv (hf _ _)
  | file g js vs hg hl =>
    cases he
    exact ⟨js, rfl, hl⟩

theorem loop_run {tracing : Bool} (args : List Name) : ∀ (s s' : Seen), loopFrom tracing args s = .ok (.run s'.1 s'.2.1 s'.2.2) ↔
    ∃ is, Line is args ∧ applyItems tracing is s = some s' := by
  have step : ∀ (i : Item) (s s' : Seen) (rest : Seen → Run Request) (P : Seen → Prop), (∀ s, rest s = .ok (.run s'.1 s'.2.1 s'.2.2) ↔ P s) →
      (answer tracing s rest i = .ok (.run s'.1 s'.2.1 s'.2.2) ↔ ∃ s1, applyItem tracing s i = some s1 ∧ P s1) := by
    intro i s s' rest P hP
    have hgo : ∀ x : Option Seen, ((match x with | some s => rest s | none => .err) = .ok (.run s'.1 s'.2.1 s'.2.2)) ↔ ∃ s1, x = some s1 ∧ P s1 := by
      intro x
      cases x with
      | none => simp
      | some s1 => simp [hP]
    cases i with
    | help => simp [answer, applyItem]
    | config => simp [answer, applyItem]
    | set x v => exact hgo (some _)
    | incl f => exact hgo (some _)
    | reference f => exact hgo (some _)
    | _ => exact hgo _
  induction args using line_induct with
  | hnil =>
    intro s s'
    constructor
    · intro h
      refine ⟨[], .nil, ?_⟩
      simp only [loopFrom, argLoop, Run.ok.injEq, Request.run.injEq] at h
      obtain ⟨h1, h2, h3⟩ := h
      simp only [applyItems, Option.some.injEq]
      exact Prod.ext h1 (Prod.ext h2 h3)
    · rintro ⟨is, h1, h2⟩
      generalize he : ([] : List Name) = l at h1
      cases h1 with
      | nil =>
        simp only [applyItems, Option.some.injEq] at h2
        subst h2
        rfl
      | marked i is w ws hm hl => cases hm <;> simp at he
      | file f is ws hf hl => cases he
  | htag =>
    intro s s'
    constructor
    · intro h
      simp only [loopFrom, argLoop_cons] at h
      exact absurd h (by simp [argOption, startsWith, bytes])
    · rintro ⟨is, h1, _⟩
      exact absurd h1 line_tag
  | hm i w ws hm ih =>
    intro s s'
    rw [loop_marked hm, step i s s' _ _ fun s => ih s s']
    constructor
    · rintro ⟨s1, h1, is, h2, h3⟩
      exact ⟨i :: is, .marked _ _ _ _ hm h2, by simp [applyItems, h1, h3]⟩
    · rintro ⟨is, h1, h2⟩
      obtain ⟨js, rfl, h3⟩ := line_marked_inv hm h1
      simp only [applyItems, Option.bind_eq_some_iff] at h2
      obtain ⟨s1, h4, h5⟩ := h2
      exact ⟨s1, h4, js, h3, h5⟩
  | hf f ws hf ih =>
    intro s s'
    rw [loop_file hf, step _ s s' _ _ fun s => ih s s']
    constructor
    · rintro ⟨s1, h1, is, h2, h3⟩
      exact ⟨.file f :: is, .file _ _ _ hf h2, by simp [applyItems, h1, h3]⟩
    · rintro ⟨is, h1, h2⟩
      obtain ⟨js, rfl, h3⟩ := line_file_inv hf h1
      simp only [applyItems, Option.bind_eq_some_iff] at h2
      obtain ⟨s1, h4, h5⟩ := h2
      exact ⟨s1, h4, js, h3, h5⟩

/-- the program stops with a message exactly if the arguments before the item that asks for it are fine -/
theorem loop_message {tracing : Bool} {q : Request} {i : Item} {w0 : Name} (hq : i = .help ∧ q = .help ∨ i = .config ∧ q = .config) (hi : Marked i [w0])
    (args : List Name) : ∀ (s : Seen), loopFrom tracing args s = .ok q ↔
    ∃ is ws rest, args = ws ++ w0 :: rest ∧ Line is ws ∧ (applyItems tracing is s).isSome := by
  have step : ∀ (j : Item) (s : Seen) (rest : Seen → Run Request) (P : Seen → Prop), j ≠ i → (∀ s, rest s = .ok q ↔ P s) →
      (answer tracing s rest j = .ok q ↔ ∃ s1, applyItem tracing s j = some s1 ∧ P s1) := by
    intro j s rest P hj hP
    have hgo : ∀ x : Option Seen, ((match x with | some s => rest s | none => .err) = .ok q) ↔ ∃ s1, x = some s1 ∧ P s1 := by
      intro x
      cases x with
      | none => simp
      | some s1 => simp [hP]
    cases j with
    | help => rcases hq with ⟨rfl, rfl⟩ | ⟨rfl, rfl⟩ <;> simp_all [answer, applyItem]
    | config => rcases hq with ⟨rfl, rfl⟩ | ⟨rfl, rfl⟩ <;> simp_all [answer, applyItem]
    | set x v => exact hgo (some _)
    | incl f => exact hgo (some _)
    | reference f => exact hgo (some _)
    | _ => exact hgo _
  induction args using line_induct with
  | hnil =>
    intro s
    constructor
    · intro h
      simp only [loopFrom, argLoop, Run.ok.injEq] at h
      rcases hq with ⟨_, rfl⟩ | ⟨_, rfl⟩ <;> cases h
    · rintro ⟨is, ws, rest, h, _⟩
      simp at h
  | htag =>
    intro s
    constructor
    · intro h
      simp only [loopFrom, argLoop_cons] at h
      exact absurd h (by simp [argOption, startsWith, bytes])
    · rintro ⟨is, ws, rest, h, _⟩
      have h1 := congrArg List.length h
      simp only [List.length_append, List.length_cons, List.length_nil] at h1
      have h2 : ws = [] := List.eq_nil_of_length_eq_zero (by omega)
      subst h2
      simp only [List.nil_append, List.cons.injEq] at h
      have h3 := h.1
      rcases hq with ⟨rfl, _⟩ | ⟨rfl, _⟩ <;> cases hi <;> simp [bytes] at h3
  | hm j w ws hm ih =>
    intro s
    rw [loop_marked hm]
    by_cases hj : j = i
    · subst hj
      have hw : w = [w0] := by rcases hq with ⟨rfl, _⟩ | ⟨rfl, _⟩ <;> cases hi <;> cases hm <;> rfl
      subst hw
      constructor
      · intro _
        exact ⟨[], [], ws, rfl, .nil, rfl⟩
      · intro _
        rcases hq with ⟨rfl, rfl⟩ | ⟨rfl, rfl⟩ <;> rfl
    · rw [step j s _ _ hj ih]
      constructor
      · rintro ⟨s1, h1, is, vs, rest, rfl, h2, h3⟩
        exact ⟨j :: is, w ++ vs, rest, by simp, .marked _ _ _ _ hm h2, by simpa [applyItems, h1] using h3⟩
      · rintro ⟨is, vs, rest, h1, h2, h3⟩
        cases h2 with
        | nil =>
          obtain ⟨rfl, _⟩ := marked_unique hm hi (ws := ws) (vs := rest) (by simpa using h1)
          exact absurd rfl hj
        | marked k ks v vs hv hl =>
          rw [List.append_assoc] at h1
          obtain ⟨rfl, rfl⟩ := marked_unique hm hv h1
          simp only [applyItems, Option.isSome_bind] at h3
          cases h4 : applyItem tracing s j with
          | none => simp [h4] at h3
          | some s1 => exact ⟨s1, rfl, ks, vs, rest, rfl, hl, by simpa [h4] using h3⟩
        | file f ks vs hf hl =>
          cases w with
          | nil => cases hm
          | cons a w =>
            simp only [List.cons_append, List.cons.injEq] at h1
            exact absurd (h1.1 ▸ hm) (hf _ _)
  | hf f ws hf ih =>
    intro s
    rw [loop_file hf, step _ s _ _ (by rcases hq with ⟨rfl, _⟩ | ⟨rfl, _⟩ <;> simp) ih]
    constructor
    · rintro ⟨s1, h1, is, vs, rest, rfl, h2, h3⟩
      exact ⟨.file f :: is, f :: vs, rest, rfl, .file _ _ _ hf h2, by simpa [applyItems, h1] using h3⟩
    · rintro ⟨is, vs, rest, h1, h2, h3⟩
      cases h2 with
      | nil =>
        cases h1
        exact absurd hi (hf _ _)
      | marked k ks v vs hv hl =>
        cases v with
        | nil => cases hv
        | cons a v =>
          simp only [List.cons_append, List.cons.injEq] at h1
          exact absurd (h1.1 ▸ hv) (hf _ _)
      | file g ks vs hg hl =>
        simp only [List.cons_append, List.cons.injEq] at h1
        obtain ⟨rfl, rfl⟩ := h1
        simp only [applyItems, Option.isSome_bind] at h3
        cases h4 : applyItem tracing s (.file f) with
        | none => simp [h4] at h3
        | some s1 => exact ⟨s1, rfl, ks, vs, rest, rfl, hl, by simpa [h4] using h3⟩

/-! ### The items -/

def valueFrom (v : Bool) (x : Opt) (is : List Item) : Bool := (is.filterMap (Item.says x)).getLast?.getD v

theorem of_setOpt (o : Options) (x y : Opt) (v : Bool) : x.of (setOpt o y v) = ((Item.set y v).says x).getD (x.of o) := by
  cases x <;> cases y <;> cases v <;> rfl

theorem valueFrom_cons (v : Bool) (x : Opt) (i : Item) (is : List Item) : valueFrom v x (i :: is) = valueFrom ((i.says x).getD v) x is := by
  simp only [valueFrom, List.filterMap_cons]
  cases i.says x with
  | none => rfl
  | some u => cases h : is.filterMap (Item.says x) with
    | nil => rfl
    | cons a l => simp [List.getLast?_cons]

theorem of_ext {o o' : Options} (h : ∀ x : Opt, x.of o = x.of o') : o = o' := by
  have h1 := h .parseLet; have h2 := h .printDag; have h3 := h .stats; have h4 := h .statsAll; have h5 := h .statsCompact
  have h6 := h .ruleSymTable; have h7 := h .normDec; have h8 := h .normNum; have h9 := h .normHex
  cases o; cases o'
  simp only [Opt.of] at h1 h2 h3 h4 h5 h6 h7 h8 h9
  simp [h1, h2, h3, h4, h5, h6, h7, h8, h9]

theorem applyItems_iff {tracing : Bool} : ∀ (is : List Item) (s s' : Seen), applyItems tracing is s = some s' ↔
    (.help ∉ is ∧ .config ∉ is ∧ (tracing = false → .verbose ∉ is ∧ ∀ tag, .trace tag ∉ is)) ∧ (∀ x : Opt, x.of s'.1 = valueFrom (x.of s.1) x is) ∧
      s'.2.1 = s.2.1 ++ includesOf is ∧ s.2.2.toList ++ filesOf is = s'.2.2.toList
  | [], s, s' => by
    simp only [applyItems, Option.some.injEq, List.not_mem_nil, not_false_eq_true, implies_true, and_self, true_and, includesOf, filesOf, List.filterMap_nil, List.append_nil,
      valueFrom, List.getLast?_nil, Option.getD_none]
    constructor
    · rintro rfl; exact ⟨fun _ => rfl, rfl, rfl⟩
    · rintro ⟨h1, h2, h3⟩
      refine Prod.ext (of_ext fun x => (h1 x).symm) (Prod.ext h2.symm ?_)
      cases h4 : s.2.2 <;> cases h5 : s'.2.2 <;> simp_all
  | i :: is, s, s' => by
    have ih := applyItems_iff (tracing := tracing) is
    have hv := valueFrom_cons
    simp only [applyItems, Option.bind_eq_some_iff, ih]
    cases i with
    | set x v => simp [applyItem, includesOf, filesOf, hv, of_setOpt]
    | incl f => simp [applyItem, includesOf, filesOf, hv, Item.says]
    | reference f => simp [applyItem, includesOf, filesOf, hv, Item.says]
    | help => simp [applyItem]
    | config => simp [applyItem]
    | trace tag =>
      cases tracing with
      | true => simp [applyItem, includesOf, filesOf, hv, Item.says]
      | false =>
        simp only [applyItem, Bool.false_eq_true, if_false, List.mem_cons, not_or, reduceCtorEq, false_and, exists_false, true_imp_iff, Item.trace.injEq, false_iff]
        rintro ⟨⟨_, _, _, h⟩, _⟩
        exact (h tag).1 rfl
    | verbose =>
      cases tracing with
      | true => simp [applyItem, includesOf, filesOf, hv, Item.says]
      | false => simp [applyItem]
    | file f =>
      cases h : s.2.2 with
      | none => simp [applyItem, includesOf, filesOf, hv, Item.says, h]
      | some g =>
        simp only [applyItem, h, reduceCtorEq, false_and, exists_false, false_iff]
        rintro ⟨_, _, _, h1⟩
        have := congrArg List.length h1
        simp only [filesOf, List.filterMap_cons, Option.toList_some, List.length_append, List.length_cons, List.length_nil] at this
        cases h5 : s'.2.2 <;> simp [h5] at this

theorem applyItems_some {tracing : Bool} (is : List Item) (o : Options) : (applyItems tracing is (o, [], none)).isSome ↔ Goes tracing is := by
  have : ∀ is, ∀ s : Seen, (.help ∉ is ∧ .config ∉ is ∧ (tracing = false → .verbose ∉ is ∧ ∀ tag, .trace tag ∉ is)) → (s.2.2.toList ++ filesOf is).length ≤ 1 →
      (applyItems tracing is s).isSome := by
    intro is
    induction is with
    | nil => intro s _ _; rfl
    | cons i is ih =>
      intro s h1 h2
      have h3 : (.help ∉ is ∧ .config ∉ is ∧ (tracing = false → .verbose ∉ is ∧ ∀ tag, .trace tag ∉ is)) := by
        refine ⟨fun h => h1.1 (by simp [h]), fun h => h1.2.1 (by simp [h]), fun ht => ⟨fun h => (h1.2.2 ht).1 (by simp [h]), fun tag h => (h1.2.2 ht).2 tag (by simp [h])⟩⟩
      simp only [applyItems]
      cases i with
      | help => exact absurd (by simp) h1.1
      | config => exact absurd (by simp) h1.2.1
      | trace tag =>
        cases tracing with
        | true => simpa [applyItem] using ih s h3 (by simpa [filesOf] using h2)
        | false => exact absurd (by simp) ((h1.2.2 rfl).2 tag)
      | verbose =>
        cases tracing with
        | true => simpa [applyItem] using ih s h3 (by simpa [filesOf] using h2)
        | false => exact absurd (by simp) (h1.2.2 rfl).1
      | file f =>
        cases h : s.2.2 with
        | none =>
          simp only [applyItem, h, Option.bind_some]
          exact ih _ h3 (by simpa [filesOf, h, Nat.add_comm] using h2)
        | some g =>
          rw [h] at h2
          simp [filesOf] at h2
      | _ => simpa [applyItem] using ih _ h3 (by simpa [filesOf] using h2)
  constructor
  · intro h
    obtain ⟨s', h⟩ := Option.isSome_iff_exists.1 h
    obtain ⟨h1, _, _, h2⟩ := (applyItems_iff is _ _).1 h
    refine ⟨h1.1, h1.2.1, h1.2.2, ?_⟩
    simp only [Option.toList_none, List.nil_append] at h2
    rw [h2]
    cases s'.2.2 <;> simp
  · intro h
    exact this is _ ⟨h.1, h.2.1, h.2.2.1⟩ (by simpa using h.2.2.2)

end Ethos.Props
