import Verif.Lemmas.Rename
/-
Evaluation, typing and the builtin operators commute with an exchange of symbols (C78).
-/

namespace Ethos.Spec
open Ethos
/-- the stack, the table of results and the outcome of a step with other symbols -/
def Renaming.rens (ρ : Renaming) : List Term → List Term := List.map ρ.term
def Renaming.opt (ρ : Renaming) : Option Term → Option Term := Option.map ρ.term
def Renaming.frame (ρ : Renaming) (f : Ethos.Frame) : Frame :=
  ⟨ρ.term f.init, ρ.ctx f.ctx, f.visited.map fun p => (ρ.term p.1, ρ.opt p.2), ρ.rens f.visit, f.key.map ρ.rens⟩
def Renaming.trie (ρ : Renaming) (tr : List (List Term × Option Term)) : List (List Term × Option Term) := tr.map fun p => (ρ.rens p.1, ρ.opt p.2)
def Renaming.mach (ρ : Renaming) (m : Mach) : Mach := ⟨m.stack.map ρ.frame, ρ.trie m.trie⟩
def Renaming.step (ρ : Renaming) : Step → Step
  | .next m => .next (ρ.mach m)
  | .done t => .done (ρ.term t)
  | .ub => .ub
  | .fuel => .fuel
def Renaming.call (ρ : Renaming) : Option (Term × Ctx) → Option (Term × Ctx) := Option.map fun p => (ρ.term p.1, ρ.ctx p.2)
end Ethos.Spec

namespace Ethos.Props
open Ethos Kind Spec Term

theorem out_bind {α β α' β' : Type} (f : α → α') (h : β → β') {x : Out α} {g : α → Out β} {g' : α' → Out β'} (H : ∀ a, g' (f a) = (g a).map h) :
    (x.map f).bind g' = (x.bind g).map h := by
  cases x <;> simp [Out.map, Out.bind, H]

theorem out_map {α β α' β' : Type} (f : α → α') (h : β → β') {x : Out α} {g : α → β} {g' : α' → β'} (H : ∀ a, g' (f a) = h (g a)) :
    (x.map f).map g' = (x.map g).map h := by
  cases x <;> simp [Out.map, H]

theorem out_ite {α β : Type} (h : α → β) {c : Prop} [Decidable c] {a b : Out α} {a' b' : Out β} (ha : a' = a.map h) (hb : b' = b.map h) :
    (if c then a' else b') = (if c then a else b).map h := by split <;> assumption

theorem lookup_inj {α β γ : Type} [BEq α] [LawfulBEq α] (f : α → α) (hf : ∀ a b, f a = f b → a = b) (g : β → γ) (a : α) (l : List (α × β)) :
    (l.map fun p => (f p.1, g p.2)).lookup (f a) = (l.lookup a).map g := by
  induction l with
  | nil => rfl
  | cons p l ih =>
    simp only [List.map_cons, List.lookup]
    by_cases h : a = p.1
    · simp [h]
    · have h' : f a ≠ f p.1 := fun e => h (hf _ _ e)
      simp [beq_eq_false_iff_ne.2 h, beq_eq_false_iff_ne.2 h', ih]

section
variable (ρ : Renaming)

theorem ren_allSome : ∀ l : List (Option Term), allSome (l.map ρ.opt) = (allSome l).map ρ.rens
  | [] => rfl
  | none :: _ => rfl
  | some t :: l => by
    simp only [List.map_cons, Renaming.opt, Option.map_some, allSome]
    have := ren_allSome l
    simp only [Renaming.opt] at this
    rw [this]
    cases allSome l <;> rfl

theorem ren_rebuild (cur : Term) (cs : List Term) : rebuild (ρ.term cur) (ρ.rens cs) = ρ.term (rebuild cur cs) := by
  simp only [rebuild, ren_children, Renaming.rens, rens_inj, ren_kind]
  split
  · rfl
  · rw [ren_node]

theorem ren_set (f : Ethos.Frame) (cur : Term) (rest : List Term) (v : Term) : (ρ.frame f).set (ρ.term cur) (ρ.rens rest) (ρ.term v) = ρ.frame (f.set cur rest v) := rfl

theorem ren_visited (f : Ethos.Frame) (c : Term) : (ρ.frame f).visited.lookup (ρ.term c) = (f.visited.lookup c).map ρ.opt := ren_lookup ρ _ c _

theorem ren_trie (tr : List (List Term × Option Term)) (cs : List Term) : (ρ.trie tr).lookup (ρ.rens cs) = (tr.lookup cs).map ρ.opt :=
  lookup_inj ρ.rens (fun _ _ h => (rens_inj ρ).1 h) ρ.opt cs tr

theorem ren_finish (f : Ethos.Frame) (fs : List Ethos.Frame) (tr : List (List Term × Option Term)) (cur : Term) (rest : List Term) (cch : List (Option Term)) (r : Option Term) :
    finish (ρ.frame f) (fs.map ρ.frame) (ρ.trie tr) (ρ.term cur) (ρ.rens rest) (cch.map ρ.opt) (ρ.opt r) = ρ.step (finish f fs tr cur rest cch r) := by
  unfold finish
  cases r with
  | some v => rfl
  | none =>
    simp only [Renaming.opt, Option.map_none]
    have := ren_allSome ρ cch
    simp only [Renaming.opt] at this
    rw [this]
    cases allSome cch with
    | none => rfl
    | some cs => simp only [Option.map_some, ren_rebuild]; rfl

theorem ren_stepProg {P P' : List Term → Out (Option (Term × Ctx))} (hP : ∀ cs, P' (ρ.rens cs) = (P cs).map ρ.call)
    (f : Ethos.Frame) (fs : List Ethos.Frame) (tr : List (List Term × Option Term)) (cur : Term) (rest : List Term) (cch : List (Option Term)) :
    stepProg P' (ρ.frame f) (fs.map ρ.frame) (ρ.trie tr) (ρ.term cur) (ρ.rens rest) (cch.map ρ.opt) = ρ.step (stepProg P f fs tr cur rest cch) := by
  unfold stepProg
  rw [ren_allSome]
  cases allSome cch with
  | none => rfl
  | some cs =>
    simp only [Option.map_some, ren_trie]
    cases tr.lookup cs with
    | some r => exact ren_finish ρ f fs tr cur rest cch r
    | none =>
      simp only [Option.map_none, hP]
      cases P cs with
      | ub => rfl
      | fuel => rfl
      | ok r =>
        cases r with
        | none => exact ren_finish ρ f fs ((cs, none) :: tr) cur rest cch none
        | some p =>
          obtain ⟨body, nctx⟩ := p
          simp only [Out.map, Renaming.call, Option.map_some, ren_ground]
          have : (ρ.ctx nctx).isEmpty = nctx.isEmpty := by simp [Renaming.ctx]
          rw [this]
          split
          · exact ren_finish ρ f fs ((cs, some body) :: tr) cur rest cch (some body)
          · rfl

theorem ren_opt_isNone (a : Option Term) : (ρ.opt a).isNone = a.isNone := by cases a <;> rfl

theorem ren_stepSecond {O O' : Kind → List Term → Out (Option Term)} (hO : ∀ k cs, O' k (ρ.rens cs) = (O k cs).map ρ.opt)
    {P P' : List Term → Out (Option (Term × Ctx))} (hP : ∀ cs, P' (ρ.rens cs) = (P cs).map ρ.call)
    (f : Ethos.Frame) (fs : List Ethos.Frame) (tr : List (List Term × Option Term)) (cur : Term) (rest : List Term) :
    stepSecond O' P' (ρ.frame f) (fs.map ρ.frame) (ρ.trie tr) (ρ.term cur) (ρ.rens rest) = ρ.step (stepSecond O P f fs tr cur rest) := by
  have hcch : (ρ.term cur).children.map (fun c => ((ρ.frame f).visited.lookup c).join) = (cur.children.map (fun c => (f.visited.lookup c).join)).map ρ.opt := by
    rw [ren_children, List.map_map, List.map_map]
    refine List.map_congr_left fun c _ => ?_
    simp only [Function.comp, ren_visited]
    cases f.visited.lookup c with
    | none => rfl
    | some v => cases v <;> rfl
  unfold stepSecond
  simp only [hcch]
  simp only [ren_kind, ren_children]
  generalize cur.children.map (fun c => (f.visited.lookup c).join) = cch
  split
  · match cch with
    | [] => rfl
    | none :: _ => rfl
    | some h :: r =>
      simp only [List.map_cons, Renaming.opt, Option.map_some, ren_kind, ren_children, List.map_eq_nil_iff]
      split
      · exact ren_stepProg ρ hP f fs tr cur rest (some h :: r)
      · exact ren_finish ρ f fs tr cur rest (some h :: r) none
  · split
    · match hcs : cur.children, cch with
      | [c0, t1, t2], [some c, a, b] =>
        simp only [List.map_cons, List.map_nil]
        have hlast : ∀ c : Term, (if ((ρ.opt a).isNone || (ρ.opt b).isNone) = true then
            Step.next ⟨{ ρ.frame f with visit := (if (ρ.opt b).isNone = true then [ρ.term t2] else []) ++ (if (ρ.opt a).isNone = true then [ρ.term t1] else []) ++ ρ.term cur :: ρ.rens rest } :: fs.map ρ.frame, ρ.trie tr⟩
            else finish (ρ.frame f) (fs.map ρ.frame) (ρ.trie tr) (ρ.term cur) (ρ.rens rest) [some (ρ.term c), ρ.opt a, ρ.opt b] none) =
            ρ.step (if (a.isNone || b.isNone) = true then
            Step.next ⟨{ f with visit := (if b.isNone = true then [t2] else []) ++ (if a.isNone = true then [t1] else []) ++ cur :: rest } :: fs, tr⟩
            else finish f fs tr cur rest [some c, a, b] none) := by
          intro c
          rw [ren_opt_isNone, ren_opt_isNone]
          split
          · simp only [Renaming.step, Renaming.mach, List.map_cons, Renaming.frame, Renaming.rens, List.map_append, Step.next.injEq, Mach.mk.injEq, List.cons.injEq, and_true, Frame.mk.injEq, true_and]
            cases a <;> cases b <;> rfl
          · exact ren_finish ρ f fs tr cur rest [some c, a, b] none
        cases c with
        | sym k i => exact hlast _
        | node k cs => 
          have := hlast (.node k cs)
          simp only [ren_node, Renaming.opt, Option.map_some] at this ⊢
          exact this
        | lit l =>
          have hl := hlast (.lit l)
          simp only [ren_lit, Renaming.opt, Option.map_some] at hl ⊢
          cases l with
          | bool v =>
            simp only
            cases v with
            | true =>
              simp only [if_true]
              cases a with
              | none => rfl
              | some e => exact ren_finish ρ f fs tr cur rest [some (.lit (.bool true)), some e, b] (some e)
            | false =>
              simp only [Bool.false_eq_true, if_false]
              cases b with
              | none => rfl
              | some e => exact ren_finish ρ f fs tr cur rest [some (.lit (.bool false)), a, some e] (some e)
          | _ => exact hl
      | [], _ => rfl
      | [_], _ => rfl
      | [_, _], _ => rfl
      | _ :: _ :: _ :: _ :: _, _ => rfl
      | [_, _, _], [] => rfl
      | [_, _, _], none :: _ => rfl
      | [_, _, _], [some _] => rfl
      | [_, _, _], [some _, _] => rfl
      | [_, _, _], some _ :: _ :: _ :: _ :: _ => rfl
    · split
      · rw [ren_allSome]
        cases allSome cch with
        | none => rfl
        | some cs =>
          simp only [Option.map_some, hO]
          cases O cur.kind cs with
          | ub => rfl
          | fuel => rfl
          | ok r => exact ren_finish ρ f fs tr cur rest cch r
      · exact ren_finish ρ f fs tr cur rest cch none

theorem ren_stepCur {O O' : Kind → List Term → Out (Option Term)} (hO : ∀ k cs, O' k (ρ.rens cs) = (O k cs).map ρ.opt)
    {P P' : List Term → Out (Option (Term × Ctx))} (hP : ∀ cs, P' (ρ.rens cs) = (P cs).map ρ.call)
    (f : Ethos.Frame) (fs : List Ethos.Frame) (tr : List (List Term × Option Term)) (cur : Term) (rest : List Term) :
    stepCur O' P' (ρ.frame f) (fs.map ρ.frame) (ρ.trie tr) (ρ.term cur) (ρ.rens rest) = ρ.step (stepCur O P f fs tr cur rest) := by
  unfold stepCur
  have he : (ρ.frame f).ctx.isEmpty = f.ctx.isEmpty := by simp [Renaming.frame, Renaming.ctx]
  have hf : (ρ.frame f).ctx.find (ρ.term cur) = (f.ctx.find cur).map ρ.term := ren_find ρ f.ctx cur
  simp only [ren_evaluatable, ren_ground, he, ren_kind, ren_children, List.map_eq_nil_iff, hf, ren_visited]
  split
  · rfl
  · split
    · cases f.ctx.find cur <;> rfl
    · cases f.visited.lookup cur with
      | none =>
        simp only [Option.map_none]
        split
        · match cur.children with
          | [] => rfl
          | [_] => rfl
          | [_, _] => rfl
          | [_, _, _] => rfl
          | _ :: _ :: _ :: _ :: _ => rfl
        · simp [Renaming.step, Renaming.mach, Renaming.frame, Renaming.rens, Renaming.opt]
      | some v =>
        cases v with
        | none => exact ren_stepSecond ρ hO hP f fs tr cur rest
        | some v => rfl

theorem ren_stepMach {O O' : Kind → List Term → Out (Option Term)} (hO : ∀ k cs, O' k (ρ.rens cs) = (O k cs).map ρ.opt)
    {P P' : List Term → Out (Option (Term × Ctx))} (hP : ∀ cs, P' (ρ.rens cs) = (P cs).map ρ.call) (m : Mach) :
    stepMach O' P' (ρ.mach m) = ρ.step (stepMach O P m) := by
  obtain ⟨stack, tr⟩ := m
  cases stack with
  | nil => rfl
  | cons f fs =>
    simp only [stepMach, Renaming.mach, List.map_cons]
    cases hv : f.visit with
    | cons cur rest =>
      have : (ρ.frame f).visit = ρ.term cur :: ρ.rens rest := by simp [Renaming.frame, hv, Renaming.rens]
      rw [this]
      exact ren_stepCur ρ hO hP f fs tr cur rest
    | nil =>
      have : (ρ.frame f).visit = [] := by simp [Renaming.frame, hv, Renaming.rens]
      rw [this]
      have h0 : (ρ.frame f).visited.lookup (ρ.frame f).init = (f.visited.lookup f.init).map ρ.opt := ren_visited ρ f f.init
      simp only [h0]
      cases f.visited.lookup f.init with
      | none => rfl
      | some v =>
        cases v with
        | none => rfl
        | some v =>
          simp only [Option.map_some, Renaming.opt]
          cases fs with
          | nil => rfl
          | cons g gs =>
            simp only [List.map_cons]
            cases hg : g.visit with
            | nil =>
              have : (ρ.frame g).visit = [] := by simp [Renaming.frame, hg, Renaming.rens]
              rw [this]; rfl
            | cons c r =>
              have : (ρ.frame g).visit = ρ.term c :: ρ.rens r := by simp [Renaming.frame, hg, Renaming.rens]
              rw [this]
              have hk : (ρ.frame f).key = f.key.map ρ.rens := rfl
              rw [hk]
              cases f.key <;> rfl

theorem ren_runMach {O O' : Kind → List Term → Out (Option Term)} (hO : ∀ k cs, O' k (ρ.rens cs) = (O k cs).map ρ.opt)
    {P P' : List Term → Out (Option (Term × Ctx))} (hP : ∀ cs, P' (ρ.rens cs) = (P cs).map ρ.call) : ∀ (n : Nat) (m : Mach),
    runMach O' P' n (ρ.mach m) = (runMach O P n m).map ρ.term
  | 0, _ => rfl
  | n+1, m => by
    rw [runMach, runMach, ren_stepMach ρ hO hP m]
    cases stepMach O P m with
    | next m' => exact ren_runMach hO hP n m'
    | done t => rfl
    | ub => rfl
    | fuel => rfl
end
end Ethos.Props

namespace Ethos.Props
open Ethos Kind Spec Term

section
variable (ρ : Renaming)

theorem if_iff {α : Type} {p q : Prop} {_ : Decidable p} {_ : Decidable q} (h : p ↔ q) (a b : α) : (if p then a else b) = if q then a else b := by
  by_cases hp : p
  · rw [if_pos hp, if_pos (h.1 hp)]
  · rw [if_neg hp, if_neg (fun e => hp (h.2 e))]

/-! the state -/
theorem env_appInfo (env : Env) (t : Term) : (ρ.env env).appInfo (ρ.term t) = (env.appInfo t).map ρ.info := by simp [Renaming.env, back_term]
theorem env_symType (env : Env) (t : Term) : (ρ.env env).symType (ρ.term t) = ρ.opt (env.symType t) := by simp [Renaming.env, back_term, Renaming.opt]
theorem env_symName (env : Env) (t : Term) : (ρ.env env).symName (ρ.term t) = env.symName t := by simp [Renaming.env, back_term]
theorem env_hash (env : Env) (t : Term) : (ρ.env env).hash (ρ.term t) = env.hash t := by simp [Renaming.env, back_term]
theorem env_boundVar (env : Env) (x : List Nat) (t : Term) : (ρ.env env).boundVar x (ρ.term t) = ρ.term (env.boundVar x t) := by simp [Renaming.env, back_term]
theorem env_tmp (env : Env) (t : Term) : (ρ.env env).tmp (ρ.term t) = ρ.term (env.tmp t) := by simp [Renaming.env, back_term]
theorem env_dummy (env : Env) (i : Nat) (t : Term) : (ρ.env env).dummy i (ρ.term t) = ρ.term (env.dummy i t) := by simp [Renaming.env, back_term]
theorem env_program (env : Env) (t : Term) : (ρ.env env).program (ρ.term t) = ρ.opt (env.program t) := by
  simp only [Env.program, env_appInfo]
  cases env.appInfo t with
  | none => rfl
  | some ai =>
    simp only [Option.map_some, Renaming.info]
    split <;> rfl
theorem env_constructorKind (env : Env) (t : Term) : (ρ.env env).constructorKind (ρ.term t) = env.constructorKind t := by
  simp only [Env.constructorKind, env_appInfo]
  cases env.appInfo t <;> rfl

theorem ren_nil (k : Kind) : ρ.term (.node k []) = .node k [] := by rw [ren_node]; rfl

theorem ren_runCases (ch : List Term) : ∀ cs : List Term, runCases (ρ.rens ch) (ρ.rens cs) = (runCases ch cs).map ρ.call
  | [] => rfl
  | c :: cs => by
    have ih := ren_runCases ch cs
    simp only [Renaming.rens, List.map_cons, runCases, ren_children] at ih ⊢
    match c.children with
    | [] => rfl
    | [_] => rfl
    | pat :: body :: _ =>
      simp only [List.map_cons, ren_children, List.length_map, ← List.map_tail]
      have := ren_matchArgs ρ pat.children.tail ch.tail []
      simp only [Renaming.ctx, List.map_nil] at this
      rw [this, ih]
      split
      · rfl
      · cases matchArgs pat.children.tail ch.tail [] <;> rfl

theorem ren_any {p : Term → Bool} (h : ∀ t, p (ρ.term t) = p t) (l : List Term) : (l.map ρ.term).any p = l.any p := by
  rw [List.any_map]; congr 1; funext t; exact h t

theorem ren_evalProgram (env : Env) (cs : List Term) : evalProgram (ρ.env env) (ρ.rens cs) = (evalProgram env cs).map ρ.call := by
  simp only [evalProgram, Renaming.rens, ← List.map_tail]
  rw [ren_any ρ (fun t => by rw [ren_ground]), ren_any ρ (fun t => by rw [ren_evaluatable])]
  split
  · rfl
  · split
    · rfl
    · cases cs with
      | nil => rfl
      | cons hd r =>
        simp only [List.map_cons, env_program]
        cases env.program hd with
        | none => rfl
        | some prog =>
          simp only [Renaming.opt, Option.map_some, ren_children]
          exact ren_runCases ρ (hd :: r) prog.children

/-- the recursive calls commute with the renaming -/
structure RenOps (o o' : Ops) : Prop where
  evaluate : ∀ t c, o'.evaluate (ρ.term t) (ρ.ctx c) = (o.evaluate t c).map ρ.term
  evalOp : ∀ k args, o'.evalOp k (ρ.rens args) = (o.evalOp k args).map ρ.opt
  getType : ∀ t, o'.getType (ρ.term t) = (o.getType t).map ρ.opt

variable {ρ} {o o' : Ops} (H : RenOps ρ o o')

theorem ren_argO (args : List Term) (i : Nat) : argO (ρ.rens args) i = (argO args i).map ρ.term := by
  simp only [argO, Renaming.rens, List.getElem?_map]
  cases args[i]? <;> rfl

include H in
theorem ren_typesOf : ∀ l : List Term, typesOf o' (ρ.rens l) = (typesOf o l).map (Option.map ρ.rens)
  | [] => rfl
  | c :: cs => by
    have ih := ren_typesOf cs
    simp only [Renaming.rens, List.map_cons, typesOf, H.getType] at ih ⊢
    refine out_bind _ _ fun t => ?_
    cases t with
    | none => rfl
    | some t =>
      simp only [Renaming.opt, Option.map_some, ih]
      refine out_map _ _ fun r => ?_
      cases r <;> rfl

include H in
theorem ren_appPairs : ∀ ts cs : List Term, appPairs o' (ρ.rens ts) (ρ.rens cs) = (appPairs o ts cs).map fun r => (ρ.pairs r.1, r.2)
  | hdt :: hdts, child :: cs => by
    have ih := ren_appPairs hdts cs
    simp only [Renaming.rens, List.map_cons] at ih ⊢
    rw [appPairs, appPairs]
    simp only [ren_kind, ren_children]
    refine out_ite _ ?_ ?_
    · rw [show hdt.children.map ρ.term = ρ.rens hdt.children from rfl, ren_argO]
      refine out_bind _ _ fun q => ?_
      rw [H.getType]
      refine out_bind _ _ fun ct => ?_
      rw [H.getType]
      refine out_bind _ _ fun cte => ?_
      cases ct with
      | none => rfl
      | some t =>
        simp only [Renaming.opt, Option.map_some]
        have : Option.map ρ.term cte = some (ρ.term t) ↔ cte = some t := ren_opt_inj ρ (b := some t)
        refine (if_iff this _ _).trans (out_ite _ ?_ rfl)
        rw [ih]; exact out_map _ _ fun r => rfl
    · rw [H.getType]
      refine out_bind _ _ fun ct => ?_
      cases ct with
      | none => rfl
      | some t =>
        simp only [Renaming.opt, Option.map_some, ih]
        exact out_map _ _ fun r => rfl
  | [], cs => by cases cs <;> rfl
  | _ :: _, [] => by simp [Renaming.rens, appPairs, Out.map, Renaming.pairs]

include H in
theorem ren_typeApp (cs : List Term) : typeApp o' (ρ.rens cs) = (typeApp o cs).map fun r => (ρ.opt r.1, ρ.ctx r.2) := by
  unfold typeApp
  rw [ren_argO]
  refine out_bind _ _ fun hd => ?_
  rw [H.getType]
  refine out_bind _ _ fun ht => ?_
  cases ht with
  | none => rfl
  | some hdType =>
    simp only [Renaming.opt, Option.map_some, ren_kind, ren_children, Renaming.rens, List.length_map]
    refine out_ite _ rfl (out_ite _ rfl ?_)
    have := ren_appPairs H hdType.children.dropLast cs.tail
    simp only [Renaming.rens, List.map_dropLast, List.map_tail] at this
    rw [this]
    refine out_bind _ _ fun r => ?_
    have hm : (ρ.pairs r.1).map Prod.fst = (r.1.map Prod.fst).map ρ.term := by simp [Renaming.pairs]
    have hl := ren_matchLoop ρ (Term.sizes (r.1.map Prod.fst)) r.1 [] []
    simp only [Renaming.pairs, Renaming.ctx, List.map_nil] at hl hm ⊢
    rw [hm, ren_sizes, hl]
    cases matchLoop (Term.sizes (r.1.map Prod.fst)) r.1 [] [] with
    | none => rfl
    | some p =>
      obtain ⟨b, ctx⟩ := p
      cases b with
      | false => rfl
      | true =>
        simp only [Option.map_some]
        refine out_ite _ ?_ rfl
        rw [List.getLast?_map]
        cases hdType.children.getLast? with
        | none => rfl
        | some ret =>
          simp only [Option.map_some]
          have := H.evaluate ret ctx
          simp only [Renaming.ctx] at this
          rw [this]
          exact out_map _ _ fun t => rfl

include H in
theorem ren_litType (env : Env) (k : Kind) (self : Option Term) : litType (ρ.env env) o' k (ρ.opt self) = (litType env o k self).map ρ.opt := by
  have ht : ((ρ.env env).litRule k).getD tAny = ρ.term ((env.litRule k).getD tAny) := by
    show ((env.litRule k).map ρ.term).getD tAny = _
    cases env.litRule k with
    | none => exact (ren_nil ρ ANY).symm
    | some t => rfl
  have hs : (ρ.opt self).getD tAny = ρ.term (self.getD tAny) := by
    cases self with
    | none => exact (ren_nil ρ ANY).symm
    | some t => rfl
  unfold litType
  simp only [ht, hs, ren_ground]
  refine out_ite _ rfl ?_
  have := H.evaluate ((env.litRule k).getD tAny) [(env.self, self.getD tAny)]
  exact (congrArg _ this).trans (out_map _ _ fun t => rfl)

theorem out_none (k : Kind) : (.ok (some (.node k [])) : Out (Option Term)) = Out.map ρ.opt (.ok (some (.node k []))) := by
  simp [Out.map, Renaming.opt, ren_nil]

include H in
theorem ren_litOpType (env : Env) (k : Kind) (cs cts : List Term) : litOpType (ρ.env env) o' k (ρ.rens cs) (ρ.rens cts) = (litOpType env o k cs cts).map ρ.opt := by
  have hl : (ρ.rens cts).length = cts.length := by simp [Renaming.rens]
  have hs : ∀ (l : List Term) (i : Nat), (argO (ρ.rens l) i).map some = ((argO l i).map some).map ρ.opt := fun l i => by
    rw [ren_argO]; exact out_map _ _ fun t => rfl
  unfold litOpType
  rw [hl]
  refine out_ite _ rfl ?_
  split
  · exact out_none _
  all_goals first
    | exact hs _ _
    | exact out_none _
    | exact ren_litType H env _ none
    | rfl

theorem ren_mkFunctionType (l : List Term) (r : Term) : mkFunctionType (ρ.rens l) (ρ.term r) = ρ.term (mkFunctionType l r) := by
  unfold mkFunctionType Renaming.rens
  induction l with
  | nil => rfl
  | cons a l ih => simp only [List.map_cons, List.foldr_cons, ih, ren_node, List.map_nil]

include H in
theorem ren_typeInternal (env : Env) (e : Term) (cts : List Term) : typeInternal (ρ.env env) o' (ρ.term e) (ρ.rens cts) = (typeInternal env o e cts).map ρ.opt := by
  have hs : ∀ (l : List Term) (i : Nat), (argO (ρ.rens l) i).map some = ((argO l i).map some).map ρ.opt := fun l i => by
    rw [ren_argO]; exact out_map _ _ fun t => rfl
  have hc : (ρ.term e).children = ρ.rens e.children := ren_children ρ e
  have happ : (typeApp o' (ρ.rens e.children)).map Prod.fst = ((typeApp o e.children).map Prod.fst).map ρ.opt := by
    rw [ren_typeApp H]; exact out_map _ _ fun r => rfl
  unfold typeInternal
  rw [ren_kind, hc]
  split
  · exact happ
  · exact happ
  · rw [ren_argO]
    refine out_bind _ _ fun vars => ?_
    rw [ren_children, show vars.children.map ρ.term = ρ.rens vars.children from rfl, ren_typesOf H]
    refine out_bind _ _ fun ts => ?_
    cases ts with
    | none => rfl
    | some ts =>
      simp only [Option.map_some]
      rw [ren_argO]
      exact out_map _ _ fun r => by rw [ren_mkFunctionType]; rfl
  · exact out_none _
  · exact out_none _
  · exact out_none _
  · exact out_none _
  · exact out_none _
  · rw [ren_argO]
    refine out_bind _ _ fun ct => ?_
    rw [ren_kind]
    exact out_ite _ rfl rfl
  all_goals first
    | exact out_none _
    | exact ren_litType H env _ (some e)
    | rfl
    | exact hs _ _
    | exact out_ite _ (ren_litOpType H env _ _ _) rfl

include H in
theorem ren_typeStep (env : Env) (e : Term) : typeStep (ρ.env env) o' (ρ.term e) = (typeStep env o e).map ρ.opt := by
  have main : (typesOf o' (ρ.term e).children).bind (fun cts => match cts with
      | none => .ok none
      | some ctypes => (typeInternal (ρ.env env) o' (ρ.term e) ctypes).map fun r =>
        match r with
        | none => none
        | some t => if t.ground && t.evaluatable then none else some t) =
      ((typesOf o e.children).bind (fun cts => match cts with
      | none => .ok none
      | some ctypes => (typeInternal env o e ctypes).map fun r =>
        match r with
        | none => none
        | some t => if t.ground && t.evaluatable then none else some t)).map ρ.opt := by
    rw [ren_children, show e.children.map ρ.term = ρ.rens e.children from rfl, ren_typesOf H]
    refine out_bind _ _ fun cts => ?_
    cases cts with
    | none => rfl
    | some cts =>
      simp only [Option.map_some]
      rw [ren_typeInternal H]
      refine out_map _ _ fun r => ?_
      cases r with
      | none => rfl
      | some t =>
        simp only [Renaming.opt, Option.map_some, ren_ground, ren_evaluatable]
        split <;> rfl
  cases e with
  | sym k i =>
    rw [ren_sym, typeStep, typeStep, ← ren_sym, env_symType]
    rfl
  | lit l =>
    rw [ren_lit] at main ⊢
    exact main
  | node k cs =>
    rw [ren_node] at main ⊢
    exact main

theorem ren_paramsGround (ctx : Ctx) (ps : List Term) : paramsGround (ρ.ctx ctx) (ρ.rens ps) = paramsGround ctx ps := by
  unfold paramsGround Renaming.rens
  rw [List.all_map]
  congr 1
  funext p
  simp only [Function.comp, ren_find]
  cases ctx.find p with
  | none => rfl
  | some v => simp [ren_ground]

include H in
theorem ren_consTerm (ai : AppInfo) (cs : List Term) : consTerm o' (ρ.info ai) (ρ.rens cs) = (consTerm o ai cs).map ρ.opt := by
  unfold consTerm
  simp only [Renaming.info]
  cases ai.cons with
  | none => rfl
  | some ct =>
    simp only [Option.map_some, ren_kind]
    refine out_ite _ rfl ?_
    match cs with
    | [] => rfl
    | [_] => rfl
    | hd :: c1 :: r =>
      simp only [Renaming.rens, List.map_cons]
      refine out_ite _ rfl ?_
      rw [H.getType]
      refine out_bind _ _ fun t0 => ?_
      cases t0 with
      | none => rfl
      | some t0 =>
        simp only [Renaming.opt, Option.map_some]
        rw [H.getType]
        refine out_bind _ _ fun t1 => ?_
        cases t1 with
        | none => rfl
        | some t1 =>
          simp only [Renaming.opt, Option.map_some]
          have := ren_typeApp H [hd, c1]
          simp only [Renaming.rens, List.map_cons, List.map_nil] at this
          rw [this]
          refine out_bind _ _ fun r => ?_
          rw [ren_children]
          match ct.children with
          | [] => rfl
          | [_] => rfl
          | ps :: body :: _ =>
            simp only [List.map_cons, ren_children]
            rw [show ps.children.map ρ.term = ρ.rens ps.children from rfl, ren_paramsGround]
            refine out_ite _ ?_ rfl
            rw [H.evaluate]
            exact out_map _ _ fun t => rfl

theorem ren_asLit (t : Term) : asLit (ρ.term t) = asLit t := by
  cases t <;> simp [ren_sym, ren_lit, ren_node, asLit]

theorem ren_allLits : ∀ l : List Term, allLits (ρ.rens l) = allLits l
  | [] => rfl
  | t :: l => by
    have := ren_allLits l
    simp only [Renaming.rens, List.map_cons, allLits, ren_asLit] at this ⊢
    rw [this]

theorem ren_ofRes (r : Res Term) : Out.ofRes (ρ.res r) = (Out.ofRes r).map ρ.opt := by cases r <;> rfl

include H in
theorem ren_evalList (env : Env) (k : Kind) (args : List Term) : evalList (ρ.env env) o' k (ρ.rens args) = (evalList env o k args).map ρ.opt := by
  unfold evalList
  rw [ren_argO]
  refine out_bind _ _ fun a0 => ?_
  have hop : (if (ρ.term a0).kind = PARAMETERIZED then argO (ρ.term a0).children 1 else .ok (ρ.term a0)) = (if a0.kind = PARAMETERIZED then argO a0.children 1 else .ok a0).map ρ.term := by
    rw [ren_kind, ren_children]
    exact out_ite _ (ren_argO _ _) rfl
  rw [hop]
  refine out_bind _ _ fun op => ?_
  rw [env_appInfo]
  cases env.appInfo op with
  | none => rfl
  | some ai =>
    simp only [Option.map_some]
    have ha : (ρ.info ai).attr = ai.attr := rfl
    rw [ha]
    refine out_ite _ rfl (out_ite _ ?_ ?_)
    · rw [ren_argO]
      refine out_bind _ _ fun ty => ?_
      rw [env_tmp]
      exact ren_consTerm H ai [a0, env.tmp ty]
    · simp only [Renaming.rens, List.getElem?_map]
      cases args[1]? with
      | none => rfl
      | some a1 =>
        simp only [Option.map_some]
        have := ren_consTerm H ai [a0, a1]
        simp only [Renaming.rens, List.map_cons, List.map_nil] at this
        rw [this]
        refine out_bind _ _ fun nil => ?_
        cases nil with
        | none => rfl
        | some nil =>
          simp only [Renaming.opt, Option.map_some]
          rw [ren_evalListOp, ren_ofRes]
          rfl

include H in
theorem ren_evalValues (env : Env) (k : Kind) (args : List Term) : evalValues (ρ.env env) o' k (ρ.rens args) = (evalValues env o k args).map ρ.opt := by
  unfold evalValues
  rw [ren_allLits, show (ρ.rens args).length = args.length by simp [Renaming.rens]]
  cases allLits args with
  | none => exact out_ite _ rfl (ren_evalList H env k args)
  | some ls =>
    refine out_ite _ rfl ?_
    cases Lit.evaluate k ls with
    | val l => simp [Out.ofRes, Out.map, Renaming.opt, ren_lit]
    | null => rfl
    | ub => rfl

theorem ren_stripApply (t : Term) : stripApply (ρ.term t) = ρ.term (stripApply t) := by
  fun_induction stripApply t with
  | case1 h r ih => rw [ren_node, List.map_cons, stripApply]; exact ih
  | case2 t h =>
    cases t with
    | sym => simp [ren_sym, stripApply]
    | lit => simp [ren_lit, stripApply]
    | node k cs =>
      rw [ren_node, stripApply]
      intro a r e
      simp only [Term.node.injEq] at e
      obtain ⟨rfl, e⟩ := e
      cases cs with
      | nil => simp at e
      | cons c cs => exact h c cs rfl

theorem ren_dtSelectors (env : Env) (a : Term) : dtSelectors (ρ.env env) (ρ.term a) = (dtSelectors env a).map ρ.opt := by
  unfold dtSelectors
  have hop : (if (ρ.term a).kind = APPLY_OPAQUE then argO (ρ.term a).children 0 else .ok (ρ.term a)) = (if a.kind = APPLY_OPAQUE then argO a.children 0 else .ok a).map ρ.term := by
    rw [ren_kind, ren_children]
    exact out_ite _ (ren_argO _ _) rfl
  rw [hop]
  refine out_bind _ _ fun s => ?_
  rw [env_appInfo]
  cases env.appInfo s with
  | none => rfl
  | some ai => exact out_ite _ rfl rfl

theorem ren_mkListTerm (env : Env) (l : List Term) : mkListTerm (ρ.env env) (ρ.rens l) = ρ.term (mkListTerm env l) := by
  unfold mkListTerm Renaming.rens
  induction l with
  | nil => rfl
  | cons a l ih => simp only [List.map_cons, List.foldr_cons, ih, ren_app2]; rfl

include H in
theorem ren_dtConstructors (env : Env) (a : Term) : dtConstructors (ρ.env env) o' (ρ.term a) = (dtConstructors env o a).map ρ.opt := by
  have hf : ∀ x : Out Bool, x.map id = x := fun x => by cases x <;> rfl
  have h0 : (if (ρ.term a).kind = APPLY then (o'.getType (ρ.term a)).map (fun t => decide (t = some tType)) else .ok false) =
      (if a.kind = APPLY then (o.getType a).map (fun t => decide (t = some tType)) else .ok false).map id := by
    rw [ren_kind, H.getType]
    refine out_ite _ (out_map _ _ fun t => ?_) rfl
    have : ρ.opt t = some tType ↔ t = some tType := by
      have := ren_opt_inj ρ (a := t) (b := some tType)
      rwa [Option.map_some, show ρ.term tType = tType from ren_nil ρ TYPE] at this
    simp [this]
  unfold dtConstructors
  rw [h0]
  refine out_bind _ _ fun isParam => ?_
  have h1 : (if id isParam = true then stripApply (ρ.term a) else ρ.term a) = ρ.term (if isParam = true then stripApply a else a) := by
    rw [ren_stripApply]; cases isParam <;> rfl
  rw [h1, env_appInfo]
  cases env.appInfo (if isParam = true then stripApply a else a) with
  | none => rfl
  | some ai =>
    simp only [Option.map_some, id]
    refine out_ite _ (out_ite _ ?_ rfl) rfl
    simp only [Renaming.info]
    cases ai.cons with
    | none => rfl
    | some l =>
      simp only [Option.map_some, Out.map, Renaming.opt]
      rw [← ren_mkListTerm]
      congr 3
      rw [show (ρ.env env).listCons = ρ.term env.listCons from rfl, ren_naryLoop]
      simp only [Renaming.rens, List.map_map]
      refine List.map_congr_left fun c _ => ?_
      simp only [Function.comp, env_appInfo]
      cases env.appInfo c with
      | none => rfl
      | some ci =>
        simp only [Option.map_some]
        have : (ρ.info ci).attr = ci.attr := rfl
        rw [this]
        by_cases hc : ci.attr = Attr.AMB_DATATYPE_CONSTRUCTOR
        · rw [if_pos hc, if_pos hc, ren_node]; rfl
        · rw [if_neg hc, if_neg hc]

theorem ren_bool (b : Bool) : ρ.opt (some (mkBool b)) = some (mkBool b) := by simp [Renaming.opt, mkBool, ren_lit]

include H in
theorem ren_evalGround (env : Env) (k : Kind) (args : List Term) : evalGround (ρ.env env) o' k (ρ.rens args) = (evalGround env o k args).map ρ.opt := by
  have hv := fun k => ren_evalValues H env k args
  have hb : ∀ b : Bool, (.ok (some (mkBool b)) : Out (Option Term)) = Out.map ρ.opt (.ok (some (mkBool b))) := fun b => by rw [Out.map, ren_bool]
  unfold evalGround
  split
  · rw [ren_argO]; exact out_map _ _ fun a => by rw [ren_evaluatable, ren_bool]
  · rw [ren_argO]
    refine out_bind _ _ fun a => ?_
    rw [ren_evaluatable]
    refine out_ite _ (hb _) ?_
    rw [ren_argO]
    exact out_map _ _ fun b => by rw [ren_evaluatable, ren_bool]; simp only [ren_inj]
  · rw [ren_argO]
    refine out_bind _ _ fun a => ?_
    rw [ren_evaluatable]
    refine out_ite _ rfl ?_
    rw [ren_argO]
    refine out_map _ _ fun b => ?_
    simp only [ren_evaluatable, ren_inj]
    split
    · rfl
    · rw [ren_bool]
  · rw [ren_argO]
    refine out_map _ _ fun a => ?_
    simp only [ren_evaluatable, env_hash]
    split
    · rfl
    · simp [Renaming.opt, ren_lit]
  · rw [ren_argO]
    refine out_bind _ _ fun a => ?_
    rw [ren_evaluatable]
    refine out_ite _ rfl ?_
    rw [ren_argO]
    refine out_map _ _ fun b => ?_
    simp only [ren_evaluatable, env_hash]
    split
    · rfl
    · rw [ren_bool]
  · rw [ren_argO]; exact out_map _ _ fun a => by rw [ren_kind, ren_bool]
  · rw [ren_argO]; exact out_map _ _ fun a => by rw [ren_kind, ren_bool]
  · rw [ren_argO]; exact out_map _ _ fun a => by rw [ren_kind, ren_bool]
  · rw [ren_argO]; exact out_map _ _ fun a => by rw [ren_kind, ren_bool]
  · rw [ren_argO]; exact out_map _ _ fun a => by rw [ren_kind, ren_bool]
  · rw [ren_argO]; exact out_map _ _ fun a => by rw [ren_kind, ren_bool]
  · rw [ren_argO]
    refine out_bind _ _ fun a => ?_
    rw [ren_evaluatable, hv]
    refine out_ite _ rfl ?_
    rw [H.getType]
    refine out_bind _ _ fun t => ?_
    cases t with
    | none => rfl
    | some t =>
      simp only [Renaming.opt, Option.map_some, ren_ground]
      exact out_ite _ rfl rfl
  · rw [ren_argO]
    refine out_bind _ _ fun a => ?_
    rw [ren_kind, hv, env_symName]
    refine out_ite _ ?_ rfl
    simp [Out.map, Renaming.opt, ren_lit]
  · rw [ren_argO]
    refine out_bind _ _ fun a => ?_
    rw [hv]
    cases a with
    | sym => rw [ren_sym]
    | node => rw [ren_node]
    | lit l =>
      rw [ren_lit]
      cases l with
      | str s =>
        simp only
        rw [ren_argO]
        refine out_bind _ _ fun ty => ?_
        rw [ren_evaluatable]
        refine out_ite _ rfl ?_
        rw [H.getType]
        refine out_bind _ _ fun tt => ?_
        cases tt with
        | none => rfl
        | some tt =>
          simp only [Renaming.opt, Option.map_some, ren_kind]
          refine out_ite _ ?_ rfl
          rw [env_boundVar]
          rfl
      | _ => rfl
  · rw [ren_argO]; exact out_bind _ _ fun a => ren_dtSelectors env a
  · rw [ren_argO]; exact out_bind _ _ fun a => ren_dtConstructors H env a
  · exact hv _

include H in
theorem ren_opStep (env : Env) (k : Kind) (args : List Term) : opStep (ρ.env env) o' k (ρ.rens args) = (opStep env o k args).map ρ.opt := by
  have hs : ∀ (l : List Term) (i : Nat), (argO (ρ.rens l) i).map some = ((argO l i).map some).map ρ.opt := fun l i => by
    rw [ren_argO]; exact out_map _ _ fun t => rfl
  unfold opStep
  split
  · rw [ren_argO]
    refine out_bind _ _ fun c => ?_
    cases c with
    | sym => rw [ren_sym]; rfl
    | node => rw [ren_node]; rfl
    | lit l =>
      rw [ren_lit]
      cases l with
      | bool b => exact hs _ _
      | _ => rfl
  · rw [ren_argO]
    refine out_bind _ _ fun a => ?_
    rw [ren_evaluatable, ren_ground]
    refine out_ite _ ?_ rfl
    rw [ren_argO]
    refine out_bind _ _ fun b => ?_
    simp only [ren_evaluatable, ren_ground, ren_inj]
    exact out_ite _ (hs _ _) rfl
  · rw [show (ρ.rens args).any (fun e => !e.ground) = args.any (fun e => !e.ground) from ren_any ρ (fun t => by rw [ren_ground]) args]
    exact out_ite _ rfl (ren_evalGround H env _ args)
end

theorem ren_ops (ρ : Renaming) (env : Env) : ∀ n, RenOps ρ (ops env n) (ops (ρ.env env) n)
  | 0 => ⟨fun _ _ => rfl, fun _ _ => rfl, fun _ => rfl⟩
  | n+1 => by
    have ih := ren_ops ρ env n
    exact ⟨fun t c => ren_runMach ρ ih.evalOp (ren_evalProgram ρ env) n (initMach t c), ren_opStep ih env, ren_typeStep ih env⟩

end Ethos.Props
