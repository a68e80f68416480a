import Verif.Lemmas.Later
import Verif.Props.TypeCache
import Verif.Props.Elab
import Verif.Props.Rules
/-
C72: later declarations do not change what existing terms evaluate to and which types they have.
-/
namespace Ethos.Props
open Ethos Kind Spec

variable {b : Env} {n n0 : Nat} {st st' : State} {es0 es : List Event}

theorem sameMeaning_of {m : Nat} (hb : BaseOk b n0) (hm : st.next = m) (h : ∀ n, OpsAgree (Old b m) (ops (st.env b) n) (ops (st'.env b) n)) : SameMeaning b st st' := by
  have hi : ∀ t, Made b st t → Old b m t := fun t => (made_iff hb hm).1
  refine ⟨?_, ?_, ?_, ?_⟩
  · intro t r ht
    simp only [TypeResult, (h _).getType t (hi t ht)]
  · intro t ctx v ht hc
    simp only [EvaluatesTo, (h _).evaluate t ctx (hi t ht) (fun x w hx => hi w (hc x w hx))]
  · intro k args r ha
    simp only [OpResult, (h _).evalOp k args (fun a h' => hi a (ha a h'))]
  · intro m t ht
    exact (h m).getType t (hi t ht)

/-- **C72** After any commands, the terms that existed before have the types, the values and the results of built-in operators that they
had, unless a program that had been declared was defined or a category of literals got its type. -/
theorem C72_meaning (hb : BaseOk b n0) (h0 : replay b n es0 (State.init b n0) = .ok st) (h : replay b n es st = .ok st') (hs : Settled b st st') :
    SameMeaning b st st' := by
  obtain ⟨m, _, F⟩ := Fresh.replay hb es0 (Fresh.init hb) h0
  have hm := F.next
  subst hm
  have K := Kept.replay hb es F (Kept.refl True (fun _ => True) st) h
  exact sameMeaning_of hb rfl (K.ops hb F (fun t ht _ => hs.program t ((made_iff hb rfl).2 ht)) hs.literals)

/-- **C72** Commands that define no program that was declared before and give no type to literals leave the meaning of existing terms as it is. -/
theorem C72_declarations (hb : BaseOk b n0) (h0 : replay b n es0 (State.init b n0) = .ok st) (hr : .cmd .reset ∉ es0) (h : replay b n es st = .ok st')
    (ha : Additive b n es st) : SameMeaning b st st' := by
  obtain ⟨m, _, F⟩ := Fresh.replay hb es0 (Fresh.init hb) h0
  have hm := F.next
  subst hm
  obtain ⟨a, _, T⟩ := replay_table es0 hr (init_table b n0) h0
  have K := Kept.additive hb es F T (Kept.refl False (fun _ => False) st) ha h
  exact sameMeaning_of hb rfl (K.ops hb F (fun t _ hf => hf.elim) (K.lit.resolve_left id))

/-- **C72** Such commands leave the table of types right: entries made before, for terms that existed, are the types computed anew. -/
theorem C72_table (hb : BaseOk b n0) (h0 : replay b n es0 (State.init b n0) = .ok st) (hr : .cmd .reset ∉ es0) (h : replay b n es st = .ok st')
    (ha : Additive b n es st) {c : TypeCache} (hc : Faithful (st.env b) c) (hm : ∀ p ∈ c, Made b st p.1) : Faithful (st'.env b) c := by
  obtain ⟨m, _, F⟩ := Fresh.replay hb es0 (Fresh.init hb) h0
  have hn := F.next
  subst hn
  obtain ⟨a, _, T⟩ := replay_table es0 hr (init_table b n0) h0
  have K := Kept.additive hb es F T (Kept.refl False (fun _ => False) st) ha h
  have S := C72_declarations hb h0 hr h ha
  have hf : ∀ t, (∀ k i, t ≠ .sym k i) → c.find (st'.env b) t = c.find (st.env b) t := by
    intro t ht
    cases t with
    | sym k i => exact absurd rfl (ht k i)
    | lit l => rfl
    | node k cs => rfl
  have hk : ∀ t ty, (∀ k i, t ≠ .sym k i) → c.find (st.env b) t = some ty → Made b st t := by
    intro t ty ht h1
    have : c.lookup t = some ty := by
      cases t with
      | sym k i => exact absurd rfl (ht k i)
      | lit l => exact h1
      | node k cs => exact h1
    obtain ⟨l1, l2, h2, _⟩ := List.lookup_eq_some_iff.1 this
    exact hm (t, ty) (by rw [h2]; simp)
  have old : ∀ t, Made b st t → c.find (st'.env b) t = c.find (st.env b) t := by
    intro t ht
    cases t with
    | sym k i => exact K.symType _ (((made_iff hb rfl).1 ht).notNew hb F.ge)
    | lit l => rfl
    | node k cs => rfl
  constructor
  · intro t ty h1
    by_cases ht : ∀ k i, t ≠ .sym k i
    · rw [hf t ht] at h1
      exact (S.types t _ (hk t ty ht h1)).2 (hc.typed t ty h1)
    · cases t with
      | sym k i => exact ⟨1, congrArg Out.ok h1⟩
      | lit l => exact absurd (by simp) ht
      | node k cs => exact absurd (by simp) ht
  · intro t ty h1 s hs
    by_cases ht : ∀ k i, t ≠ .sym k i
    · rw [hf t ht] at h1
      obtain ⟨u, hu⟩ := hc.closed t ty h1 s hs
      have ms : Made b st s := by
        have := (made_iff hb rfl).1 (hk t ty ht h1)
        cases t with
        | sym k i => cases hs
        | lit l => cases hs
        | node k cs => exact (made_iff hb rfl).2 (this.parts hb s hs)
      exact ⟨u, (old s ms).trans hu⟩
    · cases t with
      | sym k i => cases hs
      | lit l => exact absurd (by simp) ht
      | node k cs => exact absurd (by simp) ht

/-- **C72** Every term that can be written in a state exists in it, and so do the conclusions of steps. -/
theorem C72_written (hb : BaseOk b n0) (h0 : replay b n es0 (State.init b n0) = .ok st) {e : SExp} {t : Term} (h : parseExpr b n e st = .ok (st', t)) : Made b st t := by
  obtain ⟨m, _, F⟩ := Fresh.replay hb es0 (Fresh.init hb) h0
  exact (made_iff hb F.next).2 ((freshWorld hb).parseExpr (d := 0) e F h).2

/-- **C72** A rule without `:premise-list` and without assumption, applied to terms that existed, has the same result before and after such commands. -/
theorem C72_step (hb : BaseOk b n0) (h0 : replay b n es0 (State.init b n0) = .ok st) (hr : .cmd .reset ∉ es0) (h : replay b n es st = .ok st')
    (ha : Additive b n es st) {k : Nat} {rule prog : Term} {a e : Bool} {ai : AppInfo} {proven : Option Term} {prems args : List Term}
    (hi : (st.env b).appInfo rule = some ai) (hk : ai.attr = .PROOF_RULE) (hc : ai.cons = some (.node TUPLE [tAny, mkBool a, mkBool e, prog]))
    (hm : ∀ t, t ∈ proven.toList ++ prems ++ args → Made b st t) :
    notifyStep b k st' rule proven prems args false = notifyStep b k st rule proven prems args false := by
  obtain ⟨m, _, F⟩ := Fresh.replay hb es0 (Fresh.init hb) h0
  have hn := F.next
  subst hn
  obtain ⟨T0, _, T⟩ := replay_table es0 hr (init_table b n0) h0
  have K := Kept.additive hb es F T (Kept.refl False (fun _ => False) st) ha h
  have G := F.good hb
  have hold : Old b st.next rule := by
    apply F.info
    intro hn
    simp only [State.env, Decls.appInfo, hn] at hi
    cases hs : st.scope.mark rule with
    | none => rw [hs] at hi; cases hi
    | some x => rw [hs] at hi; cases hi; cases hk
  have nn : ∀ t, Old b st.next t → NotNew st.next t := fun t ht => ht.notNew hb F.ge
  have hE : SameOn (st.env b) (st'.env b) (Old b st.next) :=
    ⟨fun t ht => K.symType t (nn t ht), fun t ht => K.symName t (nn t ht), fun t ht => K.attr (nn t ht) (fun hf => hf.elim), K.lit.resolve_left id,
      F.built.litRule, fun t h => .own _ t (.inr (.inl rfl)) h, rfl, rfl, rfl, rfl, rfl, rfl, rfl, rfl⟩
  have A := K.ops hb F (fun t _ hf => hf.elim) (K.lit.resolve_left id) k
  have hprog : Old b st.next prog := (G.cons _ _ _ hold hi hc).parts hb prog (by simp)
  obtain ⟨ai', h1, h2⟩ : ∃ ai', (st'.env b).appInfo rule = some ai' ∧ ai'.cons = ai.cons := by
    rcases attr_cases (hE.attr rule hold) with ⟨h1, _⟩ | ⟨ai1, ai', h1, h2, _, h4⟩
    · rw [h1 ai hi] at hk; cases hk
    · rw [hi] at h1
      cases h1
      exact ⟨ai', h2, h4⟩
  simp only [notifyStep, hi, h1, h2, hc, if_true, ruleInputs, asmInput, premInput, Bool.false_eq_true, if_false]
  cases hcin : concInput (decide (mkBool e = tTrue)) proven with
  | err => rfl
  | ub => rfl
  | fuel => rfl
  | ok cs =>
    have hcs : ∀ t ∈ cs, t ∈ proven.toList := by
      intro t ht
      simp only [concInput] at hcin
      split at hcin
      · cases proven with
        | none => simp [Run.orErr, Run.map] at hcin
        | some p => simp only [Run.orErr, Run.map] at hcin; cases hcin; simpa using ht
      · cases hcin; cases ht
    simp only [Run.bind, Run.map]
    by_cases hia : false ≠ decide (mkBool a = tTrue)
    · simp only [if_pos hia]
    · simp only [if_neg hia]
      have hall : ∀ t ∈ prog :: (args ++ cs ++ [] ++ prems), Old b st.next t := by
        intro t ht
        rcases List.mem_cons.1 ht with rfl | ht
        · exact hprog
        · refine (made_iff hb rfl).1 (hm t ?_)
          simp only [List.mem_append] at ht ⊢
          rcases ht with ((ht | ht) | ht) | ht
          · exact .inr ht
          · exact .inl (.inl (hcs t ht))
          · cases ht
          · exact .inl (.inr ht)
      have : evaluateProgramApp (st'.env b) (ops (st'.env b) k) (prog :: (args ++ cs ++ [] ++ prems)) =
          evaluateProgramApp (st.env b) (ops (st.env b) k) (prog :: (args ++ cs ++ [] ++ prems)) := by
        unfold evaluateProgramApp
        refine Out.bind_congr (evalProgram_agree hE hall) fun r hr => ?_
        cases r with
        | none => rfl
        | some q =>
          obtain ⟨g1, g2⟩ := evalProgram_good G hall hr
          exact A.evaluate _ _ g1 g2
      generalize hl : args ++ cs ++ [] ++ prems = l at this ⊢
      cases l with
      | nil => rfl
      | cons x l =>
        dsimp only
        rw [this]

/-! ### Cases that meet the hypotheses -/

/-- commands that add a constant, a program and a rule to those of `mpCmds` -/
def laterCmds : List Cmd := [
  .declareConst (nm "r") .bool [],
  .program (nm "g") [{ name := nm "y", type := .bool }] [.bool] .bool (some [(ap "g" [sy "y"], sy "y")]),
  .declareRule { name := nm "triv", params := boolParams ["F"], premises := .each [sy "F"], conc := sy "F" } ]

/-- a check of `Additive` along a run -/
def addsOnly (b : Env) (n : Nat) : List Event → State → Bool
  | [], _ => true
  | e :: es, st =>
    (match e with
      | .cmd .reset => false
      | .cmd (.declareConsts _ _) => false
      | .cmd (.program x _ _ _ (some _)) => (st.scope.get x).isNone
      | _ => true) &&
    match replayEvent b n st e with
    | .ok s => addsOnly b n es s
    | _ => false

theorem additive_of : ∀ {es : List Event} {st : State}, addsOnly b n es st = true → Additive b n es st
  | [], st, _ => ⟨by simp, fun x ps args ret cs s h => (by cases h), by simp⟩
  | e :: es, st, h => by
    simp only [addsOnly, Bool.and_eq_true] at h
    obtain ⟨h1, h2⟩ := h
    cases h3 : replayEvent b n st e with
    | ok s =>
      rw [h3] at h2
      have A := additive_of h2
      refine ⟨?_, ?_, ?_⟩
      · intro hm
        rcases List.mem_cons.1 hm with rfl | hm
        · simp at h1
        · exact A.reset hm
      · intro x ps args ret cs s' hs
        cases hs with
        | head => simpa using h1
        | tail _ _ _ s1 _ _ g1 g2 =>
          rw [h3] at g1
          cases g1
          exact A.program x ps args ret cs s' g2
      · intro k ty hm
        rcases List.mem_cons.1 hm with rfl | hm
        · simp at h1
        · exact A.literals k ty hm
    | err => rw [h3] at h2; cases h2
    | ub => rw [h3] at h2; cases h2
    | fuel => rw [h3] at h2; cases h2

theorem made_const {st : State} {i : Nat} (h0 : 7 < i) (h : i < st.next) : Made exB st (.sym CONST i) :=
  .sym _ _ (by simp) (.inr h) (by
    rintro ⟨ty, h1⟩
    rcases exB_own.1 h1 with h | h
    · cases h
    · cases h; exact absurd h0 (by decide))

/-- the formula `(=> p q)` of `mpCmds` -/
def mpTerm : Term := .node APPLY [.node APPLY [.sym CONST 10, .sym CONST 11], .sym CONST 12]

set_option synthInstance.maxSize 2000 in
/-- the hypotheses of the theorems are met by the declarations of `mpCmds` and `laterCmds`, with the formulas `(=> p q)` and `p` and the rule `mp` -/
theorem later_met : ∃ st st', exRun (mpCmds.take 4) = .ok st ∧ replay exB 10 (laterCmds.map .cmd) st = .ok st' ∧ Additive exB 10 (laterCmds.map .cmd) st ∧
    st.next = 17 ∧ st'.next = 23 ∧ Made exB st mpTerm ∧ Made exB st (.sym CONST 11) ∧
    (∃ ai, (st.env exB).appInfo (.sym PROOF_RULE 15) = some ai ∧ ai.attr = .PROOF_RULE ∧
      ai.cons = some (.node TUPLE [tAny, mkBool false, mkBool false, .sym PROGRAM_CONST 16])) ∧
    (ops (st.env exB) 10).getType mpTerm = .ok (some tBool) ∧
    notifyStep exB 20 st (.sym PROOF_RULE 15) none [mkProof (.sym CONST 11), mkProof mpTerm] [] false = .ok (.sym CONST 12) := by
  have hr : ((exRun (mpCmds.take 4)).bind fun st => (replay exB 10 (laterCmds.map .cmd) st).map fun st' =>
      ((st.next, st'.next, addsOnly exB 10 (laterCmds.map .cmd) st), ((st.env exB).appInfo (.sym PROOF_RULE 15)).map (fun ai => (ai.attr, ai.cons)), (ops (st.env exB) 10).getType mpTerm,
        notifyStep exB 20 st (.sym PROOF_RULE 15) none [mkProof (.sym CONST 11), mkProof mpTerm] [] false)) =
      .ok ((17, 23, true), some (.PROOF_RULE, some (.node TUPLE [tAny, mkBool false, mkBool false, .sym PROGRAM_CONST 16])), .ok (some tBool), .ok (.sym CONST 12)) := by
    decide +kernel
  simp only [Run.bind_ok, Run.map_ok, Prod.mk.injEq, Option.map_eq_some_iff] at hr
  obtain ⟨st, h1, st', h2, ⟨h3, h4, h5⟩, h6, h7, h8⟩ := hr
  have hc : ∀ i, 7 < i → i < 17 → Made exB st (.sym CONST i) := fun i h h' => made_const h (by omega)
  exact ⟨st, st', h1, h2, additive_of h5, h3, h4, .node _ _ (by simp) rfl (by
    intro c hm
    simp at hm
    rcases hm with rfl | rfl
    · refine .node _ _ (by simp) rfl ?_
      intro c hm
      simp at hm
      rcases hm with rfl | rfl
      · exact hc 10 (by decide) (by decide)
      · exact hc 11 (by decide) (by decide)
    · exact hc 12 (by decide) (by decide)), hc 11 (by decide) (by decide), h6, h7, h8⟩

/-- so the formula has its type and the rule its result also after the later commands -/
example : ∃ st st', exRun (mpCmds.take 4) = .ok st ∧ replay exB 10 (laterCmds.map .cmd) st = .ok st' ∧ TypeResult (st'.env exB) mpTerm (some tBool) ∧
    notifyStep exB 20 st' (.sym PROOF_RULE 15) none [mkProof (.sym CONST 11), mkProof mpTerm] [] false = .ok (.sym CONST 12) := by
  obtain ⟨st, st', h1, h2, h3, _, _, h4, h5, ⟨ai, h6, ha, hc⟩, h7, h8⟩ := later_met
  have hr : (Event.cmd .reset) ∉ (mpCmds.take 4).map Event.cmd := by simp [mpCmds]
  refine ⟨st, st', h1, h2, ((C72_declarations exB_ok h1 hr h2 h3).types _ _ h4).2 ⟨10, h7⟩, ?_⟩
  rw [C72_step exB_ok h1 hr h2 h3 h6 ha hc (by
    intro t ht
    simp at ht
    rcases ht with rfl | rfl
    · exact .node _ _ (by simp) rfl (by simpa using h5)
    · exact .node _ _ (by simp) rfl (by simpa using h4))]
  exact h8

/-- **C72** does not hold for the definition of a program that was declared before: the type of an existing term changes. -/
theorem C72_definition_refuted : ∃ st st' e ty ty', exRun staleCmds = .ok st ∧ exec exB 10 st defCmd = .ok st' ∧ Made exB st e ∧
    TypeResult (st.env exB) e (some ty) ∧ TypeResult (st'.env exB) e (some ty') ∧ ty ≠ ty' := by
  have hr : ((exRun staleCmds).bind fun st => (exec exB 10 st defCmd).map fun st' =>
      (st.next, (ops (st.env exB) 40).getType staleTerm, (ops (st'.env exB) 60).getType staleTerm)) =
    .ok (14, .ok (some tType), .ok (some tBool)) := by decide +kernel
  simp only [Run.bind_ok, Run.map_ok, Prod.mk.injEq] at hr
  obtain ⟨st, h1, st', h2, h3, h4, h5⟩ := hr
  refine ⟨st, st', staleTerm, tType, tBool, h1, h2, .node _ _ (by simp) rfl ?_, ⟨40, h4⟩, ⟨60, h5⟩, by decide⟩
  intro c hm
  simp at hm
  rcases hm with rfl | rfl
  · exact made_const (by decide) (by omega)
  · exact .lit _

/-- the table of the example keeps right: `(=> p q)` is entered with its type, and the entry is right after the later commands -/
example : ∃ st st', exRun (mpCmds.take 4) = .ok st ∧ replay exB 10 (laterCmds.map .cmd) st = .ok st' ∧
    ∀ c, Faithful (st.env exB) c → (∀ p ∈ c, Made exB st p.1) → Faithful (st'.env exB) c := by
  obtain ⟨st, st', h1, h2, h3, _⟩ := later_met
  exact ⟨st, st', h1, h2, fun c hc hm => C72_table exB_ok h1 (by simp [mpCmds]) h2 h3 hc hm⟩

end Ethos.Props
