import Verif.Lemmas.EvalSound
/- More fuel never changes a result. -/
namespace Ethos.Props
open Ethos Kind Spec

/-- `x` is unfinished or equal to `y` -/
def Le {α : Type} (x y : Out α) : Prop := x = .fuel ∨ x = y

theorem Le.refl {α : Type} (x : Out α) : Le x x := .inr rfl
theorem Le.fuel {α : Type} (y : Out α) : Le .fuel y := .inl rfl
theorem Le.trans {α : Type} {x y z : Out α} : Le x y → Le y z → Le x z := by
  rintro (rfl | rfl) h
  · exact .inl rfl
  · exact h
theorem Le.ok {α : Type} {x y : Out α} {a : α} (h : Le x y) (hx : x = .ok a) : y = .ok a := by
  rcases h with rfl | rfl
  · simp at hx
  · exact hx

theorem Le.bind {α β : Type} {x y : Out α} {f g : α → Out β} (h : Le x y) (hf : ∀ a, Le (f a) (g a)) :
    Le (x.bind f) (y.bind g) := by
  rcases h with rfl | rfl
  · exact .inl rfl
  · cases x with
    | ok a => exact hf a
    | ub => exact .inr rfl
    | fuel => exact .inr rfl

theorem Le.map {α β : Type} {x y : Out α} {f : α → β} (h : Le x y) : Le (x.map f) (y.map f) := by
  rcases h with rfl | rfl
  · exact .inl rfl
  · exact .inr rfl

theorem Le.ite {α : Type} {p : Prop} [Decidable p] {x y x' y' : Out α} (h : Le x x') (h' : Le y y') :
    Le (if p then x else y) (if p then x' else y') := by
  split <;> assumption

structure OpsLe (o o' : Ops) : Prop where
  evaluate : ∀ t ctx, Le (o.evaluate t ctx) (o'.evaluate t ctx)
  evalOp : ∀ k a, Le (o.evalOp k a) (o'.evalOp k a)
  getType : ∀ t, Le (o.getType t) (o'.getType t)

theorem OpsLe.refl (o : Ops) : OpsLe o o := ⟨fun _ _ => .refl _, fun _ _ => .refl _, fun _ => .refl _⟩
theorem OpsLe.trans {a b c : Ops} (h : OpsLe a b) (h' : OpsLe b c) : OpsLe a c :=
  ⟨fun t x => (h.evaluate t x).trans (h'.evaluate t x), fun k x => (h.evalOp k x).trans (h'.evalOp k x),
    fun t => (h.getType t).trans (h'.getType t)⟩

section
variable {o o' : Ops} (h : OpsLe o o') (env : Env)
include h

theorem appPairs_mono : ∀ (ts cs : List Term), Le (appPairs o ts cs) (appPairs o' ts cs)
  | [], _ => by unfold appPairs; exact .refl _
  | _ :: _, [] => by unfold appPairs; exact .refl _
  | t :: ts, c :: cs => by
    unfold appPairs
    refine .ite (.bind (.refl _) fun q => .bind (h.getType _) fun ct => .bind (h.getType _) fun cte => ?_)
      (.bind (h.getType _) fun ct => ?_)
    · cases ct with
      | none => exact .refl _
      | some t => exact .ite (.map (appPairs_mono ts cs)) (.refl _)
    · cases ct with
      | none => exact .refl _
      | some t => exact .map (appPairs_mono ts cs)

theorem typeApp_mono (cs : List Term) : Le (typeApp o cs) (typeApp o' cs) := by
  unfold typeApp
  refine .bind (.refl _) fun hd => .bind (h.getType _) fun ht => ?_
  cases ht with
  | none => exact .refl _
  | some t =>
    refine .ite (.refl _) (.ite (.refl _) (.bind (appPairs_mono h _ _) fun r => ?_))
    split
    · exact .refl _
    · exact .refl _
    · split
      · split
        · exact .refl _
        · exact .map (h.evaluate _ _)
      · exact .refl _

theorem litType_mono (k : Kind) (s : Option Term) : Le (litType env o k s) (litType env o' k s) := by
  unfold litType
  exact .ite (.refl _) (.map (h.evaluate _ _))

theorem litOpType_mono (k : Kind) (a b : List Term) : Le (litOpType env o k a b) (litOpType env o' k a b) := by
  unfold litOpType
  refine .ite (.refl _) ?_
  split <;> first | exact .refl _ | exact litType_mono h env _ _

theorem typesOf_mono : ∀ cs : List Term, Le (typesOf o cs) (typesOf o' cs)
  | [] => .refl _
  | c :: cs => by
    unfold typesOf
    refine .bind (h.getType _) fun t => ?_
    cases t with
    | none => exact .refl _
    | some t => exact .map (typesOf_mono cs)

theorem typeInternal_mono (e : Term) (ts : List Term) : Le (typeInternal env o e ts) (typeInternal env o' e ts) := by
  unfold typeInternal
  split <;> first
    | exact .refl _
    | exact .map (typeApp_mono h _)
    | exact litType_mono h env _ _
    | exact .ite (litOpType_mono h env _ _ _) (.refl _)
    | skip
  refine .bind (.refl _) fun v => .bind (typesOf_mono h _) fun ts => ?_
  exact .refl _

theorem typeStep_mono (e : Term) : Le (typeStep env o e) (typeStep env o' e) := by
  unfold typeStep
  split
  · exact .refl _
  · refine .bind (typesOf_mono h _) fun ts => ?_
    cases ts with
    | none => exact .refl _
    | some ts => exact .map (typeInternal_mono h env _ _)

theorem consTerm_mono (ai : AppInfo) (cs : List Term) : Le (consTerm o ai cs) (consTerm o' ai cs) := by
  unfold consTerm
  split
  · exact .refl _
  · refine .ite (.refl _) ?_
    split
    · exact .refl _
    · exact .refl _
    · refine .ite (.refl _) (.bind (h.getType _) fun t0 => ?_)
      cases t0 with
      | none => exact .refl _
      | some _ =>
        refine .bind (h.getType _) fun t1 => ?_
        cases t1 with
        | none => exact .refl _
        | some _ =>
          refine .bind (typeApp_mono h _) fun r => ?_
          split
          · exact .ite (.map (h.evaluate _ _)) (.refl _)
          · exact .refl _

theorem evalList_mono (k : Kind) (a : List Term) : Le (evalList env o k a) (evalList env o' k a) := by
  unfold evalList
  refine .bind (.refl _) fun a0 => .bind (.refl _) fun op => ?_
  split
  · exact .refl _
  · refine .ite (.refl _) (.ite (.bind (.refl _) fun ty => consTerm_mono h _ _) ?_)
    split
    · exact .refl _
    · exact .bind (consTerm_mono h _ _) fun r => .refl _

theorem evalValues_mono (k : Kind) (a : List Term) : Le (evalValues env o k a) (evalValues env o' k a) := by
  unfold evalValues
  split
  · exact .refl _
  · exact .ite (.refl _) (evalList_mono h env _ _)

theorem dtConstructors_mono (a : Term) : Le (dtConstructors env o a) (dtConstructors env o' a) := by
  unfold dtConstructors
  exact .bind (.ite (.map (h.getType _)) (.refl _)) fun _ => .refl _

theorem evalGround_mono (k : Kind) (a : List Term) : Le (evalGround env o k a) (evalGround env o' k a) := by
  unfold evalGround
  split <;> first
    | exact .refl _
    | exact evalValues_mono h env _ _
    | exact .bind (.refl _) fun _ => dtConstructors_mono h env _
    | exact .bind (.refl _) fun _ => .ite (.refl _) (evalValues_mono h env _ _)
    | skip
  · refine .bind (.refl _) fun x => .ite (evalValues_mono h env _ _) (.bind (h.getType _) fun t => ?_)
    cases t with
    | none => exact .refl _
    | some t => exact .ite (.refl _) (evalValues_mono h env _ _)
  · refine .bind (.refl _) fun x => ?_
    split
    · refine .bind (.refl _) fun ty => .ite (evalValues_mono h env _ _) (.bind (h.getType _) fun t => ?_)
      cases t with
      | none => exact evalValues_mono h env _ _
      | some t => exact .ite (.refl _) (evalValues_mono h env _ _)
    · exact evalValues_mono h env _ _

theorem opStep_mono (k : Kind) (a : List Term) : Le (opStep env o k a) (opStep env o' k a) := by
  unfold opStep
  split
  · exact .refl _
  · exact .refl _
  · exact .ite (.refl _) (evalGround_mono h env _ _)

end

section
variable {O O' : Kind → List Term → Out (Option Term)} (h : ∀ k a, Le (O k a) (O' k a))
  (P : List Term → Out (Option (Term × Ctx)))
include h

theorem stepSecond_mono (f : Frame) (fs : List Frame) (tr : List (List Term × Option Term)) (cur : Term)
    (rest : List Term) : stepSecond O P f fs tr cur rest = .fuel ∨
      stepSecond O P f fs tr cur rest = stepSecond O' P f fs tr cur rest := by
  unfold stepSecond
  dsimp only
  split
  · exact .inr rfl
  · split
    · exact .inr rfl
    · split
      · split
        · exact .inr rfl
        · rename_i cs _
          rcases h cur.kind cs with he | he
          · rw [he]; exact .inl rfl
          · rw [he]; exact .inr rfl
      · exact .inr rfl

theorem stepMach_mono (m : Mach) : stepMach O P m = .fuel ∨ stepMach O P m = stepMach O' P m := by
  unfold stepMach
  split
  · exact .inr rfl
  · split
    · unfold stepCur
      split
      · exact .inr rfl
      · split
        · exact .inr rfl
        · split
          · exact .inr rfl
          · exact .inr rfl
          · exact stepSecond_mono h P _ _ _ _ _
    · exact .inr rfl

theorem runMach_mono : ∀ (n n' : Nat) (m : Mach), n ≤ n' → Le (runMach O P n m) (runMach O' P n' m)
  | 0, _, _, _ => .inl rfl
  | n+1, 0, _, hn => by omega
  | n+1, n'+1, m, hn => by
    unfold runMach
    rcases stepMach_mono h P m with he | he
    · rw [he]; exact .inl rfl
    · rw [he]
      split
      · exact runMach_mono n n' _ (by omega)
      · exact .refl _
      · exact .refl _
      · exact .refl _
end

theorem ops_succ (env : Env) : ∀ n, OpsLe (ops env n) (ops env (n+1))
  | 0 => ⟨fun _ _ => .inl rfl, fun _ _ => .inl rfl, fun _ => .inl rfl⟩
  | n+1 =>
    have ih := ops_succ env n
    ⟨fun _ _ => runMach_mono ih.evalOp _ _ _ _ (by omega), fun _ _ => opStep_mono ih env _ _,
      fun _ => typeStep_mono ih env _⟩

theorem ops_mono (env : Env) {n m : Nat} (h : n ≤ m) : OpsLe (ops env n) (ops env m) := by
  induction h with
  | refl => exact .refl _
  | step _ ih => exact ih.trans (ops_succ env _)

/-- results do not depend on the bound -/
theorem ops_det {α : Type} (env : Env) (f : Ops → Out α) (hf : ∀ o o', OpsLe o o' → Le (f o) (f o')) {n m : Nat} {a b : α}
    (h : f (ops env n) = .ok a) (h' : f (ops env m) = .ok b) : a = b := by
  have h1 := (hf _ _ (ops_mono env (Nat.le_max_left n m))).ok h
  have h2 := (hf _ _ (ops_mono env (Nat.le_max_right n m))).ok h'
  rw [h1] at h2
  injection h2

end Ethos.Props
