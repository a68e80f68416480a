import Verif.Lemmas.Eval
/- Soundness of the evaluation machine with respect to the big-step relation. -/
namespace Ethos.Props
open Ethos Kind Spec

theorem lookup_cons' {α β : Type} [BEq α] [LawfulBEq α] [DecidableEq α] (l : List (α × β)) (a : α) (b : β) (x : α) :
    List.lookup x ((a, b) :: l) = if x = a then some b else l.lookup x := by
  rw [List.lookup_cons]
  by_cases h : x = a
  · subst h; simp
  · have : (x == a) = false := by simpa using h
    simp [this, h]

theorem kind_node (k : Kind) (cs : List Term) : (Term.node k cs).kind = k := rfl
theorem children_node (k : Kind) (cs : List Term) : (Term.node k cs).children = cs := rfl

/-- the relations given by outcome-valued functions -/
def ofOp (O : Kind → List Term → Out (Option Term)) (k : Kind) (a : List Term) (r : Option Term) : Prop := O k a = .ok r
def ofProg (P : List Term → Out (Option (Term × Ctx))) (a : List Term) (r : Option (Term × Ctx)) : Prop := P a = .ok r

theorem ofOp_det (O : Kind → List Term → Out (Option Term)) : ∀ k a r r', ofOp O k a r → ofOp O k a r' → r = r' := by
  intro k a r r' h h'; unfold ofOp at h h'; rw [h] at h'; injection h'
theorem ofProg_det (P : List Term → Out (Option (Term × Ctx))) : ∀ a r r', ofProg P a r → ofProg P a r' → r = r' := by
  intro a r r' h h'; unfold ofProg at h h'; rw [h] at h'; injection h'

section
variable {O : Kind → List Term → Option Term → Prop} {P : List Term → Option (Term × Ctx) → Prop}

/-- terms without computation evaluate to themselves -/
theorem Eval.self (ctx : Ctx) : ∀ t : Term, t.evaluatable = false → t.ground = true ∨ ctx = [] → Eval O P ctx t t := by
  apply Term.induct'
  intro t ih he hg
  by_cases hc : t.children = []
  · by_cases hp : IsParam t
    · rcases hg with hg | rfl
      · have := hp.1
        rw [ground_leaf t hc, this] at hg
        simp [Term.leafNonGround] at hg
      · exact .free _ _ hp rfl
    · exact .leaf _ _ hp hc
  · rw [evaluatable_inner t hc] at he
    simp only [Bool.or_eq_false_iff, List.any_eq_false] at he
    obtain ⟨hk, he⟩ := he
    have hl : ∀ c ∈ t.children, Eval O P ctx c c := by
      intro c hcm
      apply ih c hcm (by simpa using he c hcm)
      rcases hg with hg | hg
      · left
        rw [ground_inner t hc] at hg
        exact List.all_eq_true.mp hg c hcm
      · exact .inr hg
    have hL : ∀ l : List Term, (∀ c ∈ l, Eval O P ctx c c) → EvalList O P ctx l l := by
      intro l
      induction l with
      | nil => intro _; exact .nil _
      | cons a l ihl =>
        intro h
        exact .cons _ _ _ _ _ (h a (by simp)) (ihl fun c hc => h c (by simp [hc]))
    have hL' := hL _ hl
    cases t with
    | sym => simp [Term.children] at hc
    | lit => simp [Term.children] at hc
    | node k cs =>
      simp only [kind_node, children_node] at *
      by_cases hk' : k = APPLY ∨ k = APPLY_OPAQUE
      · cases cs with
        | nil => simp at hc
        | cons p ps =>
          refine .app _ _ _ _ _ hk' hL' ?_
          intro hp
          have := he p (by simp)
          rw [evaluatable_leaf p hp.2, hp.1] at this
          simp [Term.leafEval] at this
      · refine .other _ _ _ _ (by simpa using hk) (fun h => hk' (.inl h)) (fun h => hk' (.inr h)) hc hL'

/-- every finished entry of the visited map is the value of its key -/
def VInv (O : Kind → List Term → Option Term → Prop) (P : List Term → Option (Term × Ctx) → Prop) (f : Frame) : Prop :=
  ∀ x v, f.visited.lookup x = some (some v) → Eval O P f.ctx x v

/-- `r` is the result of running the program application `cs` -/
def ProgVal (O : Kind → List Term → Option Term → Prop) (P : List Term → Option (Term × Ctx) → Prop) (cs : List Term) :
    Option Term → Prop
  | none => P cs none
  | some v => ∃ body ctx', P cs (some (body, ctx')) ∧
      (((body.ground = true ∨ ctx' = []) ∧ v = body) ∨ (body.ground = false ∧ ctx' ≠ [] ∧ Eval O P ctx' body v))

def TInv (O : Kind → List Term → Option Term → Prop) (P : List Term → Option (Term × Ctx) → Prop)
    (tr : List (List Term × Option Term)) : Prop :=
  ∀ cs r, tr.lookup cs = some r → ProgVal O P cs r

/-- `f` evaluates the right-hand side of the program application on top of the visit stack of `g` -/
def Link (O : Kind → List Term → Option Term → Prop) (P : List Term → Option (Term × Ctx) → Prop) (f g : Frame) : Prop :=
  ∃ k cs rest p ps, f.key = some (p :: ps) ∧ P (p :: ps) (some (f.init, f.ctx)) ∧ f.init.ground = false ∧ f.ctx ≠ [] ∧
    g.visit = .node k cs :: rest ∧ (k = APPLY ∨ k = APPLY_OPAQUE) ∧ IsProg p ∧ EvalList O P g.ctx cs (p :: ps)

def Chain (O : Kind → List Term → Option Term → Prop) (P : List Term → Option (Term × Ctx) → Prop) (t : Term) (ctx : Ctx) :
    List Frame → Prop
  | [] => False
  | [f] => f.init = t ∧ f.ctx = ctx ∧ f.key = none ∧ VInv O P f
  | f :: g :: gs => VInv O P f ∧ Link O P f g ∧ Chain O P t ctx (g :: gs)

theorem Chain.top {t : Term} {ctx : Ctx} {f f' : Frame} {fs : List Frame} (h : Chain O P t ctx (f :: fs))
    (h1 : f'.init = f.init) (h2 : f'.ctx = f.ctx) (h3 : f'.key = f.key) (hv : VInv O P f') :
    Chain O P t ctx (f' :: fs) := by
  cases fs with
  | nil => simp only [Chain] at *; exact ⟨h1 ▸ h.1, h2 ▸ h.2.1, h3 ▸ h.2.2.1, hv⟩
  | cons g gs =>
    simp only [Chain] at *
    refine ⟨hv, ?_, h.2.2⟩
    obtain ⟨k, cs, rest, p, ps, a1, a2, a3, a4, a5⟩ := h.2.1
    exact ⟨k, cs, rest, p, ps, h3 ▸ a1, by rw [h1, h2]; exact a2, h1 ▸ a3, h2 ▸ a4, a5⟩

theorem Chain.vinv {t : Term} {ctx : Ctx} {f : Frame} {fs : List Frame} (h : Chain O P t ctx (f :: fs)) : VInv O P f := by
  cases fs with
  | nil => exact h.2.2.2
  | cons g gs => exact h.1

theorem VInv.set {f : Frame} (h : VInv O P f) (cur : Term) (rest : List Term) (v : Term) (hv : Eval O P f.ctx cur v) :
    VInv O P (f.set cur rest v) := by
  intro x w hx
  simp only [Frame.set] at hx ⊢
  rw [lookup_cons'] at hx
  split at hx
  · rename_i he; subst he; simp only [Option.some.injEq] at hx; subst hx; exact hv
  · exact h x w hx

theorem Chain.set {t : Term} {ctx : Ctx} {f : Frame} {fs : List Frame} (h : Chain O P t ctx (f :: fs))
    (cur : Term) (rest : List Term) (v : Term) (hv : Eval O P f.ctx cur v) : Chain O P t ctx (f.set cur rest v :: fs) :=
  h.top rfl rfl rfl (h.vinv.set cur rest v hv)

def MachInv (O : Kind → List Term → Option Term → Prop) (P : List Term → Option (Term × Ctx) → Prop) (t : Term) (ctx : Ctx)
    (m : Mach) : Prop := Chain O P t ctx m.stack ∧ TInv O P m.trie

theorem TInv.cons {tr : List (List Term × Option Term)} (h : TInv O P tr) {cs : List Term} {r : Option Term}
    (hr : ProgVal O P cs r) : TInv O P ((cs, r) :: tr) := by
  intro x w hx
  rw [lookup_cons'] at hx
  split at hx
  · rename_i he; subst he; simp only [Option.some.injEq] at hx; subst hx; exact hr
  · exact h x w hx

theorem allSome_evalList {f : Frame} (h : VInv O P f) : ∀ (cs cs' : List Term),
    allSome (cs.map fun c => (f.visited.lookup c).join) = some cs' → EvalList O P f.ctx cs cs'
  | [], cs', he => by simp [allSome] at he; subst he; exact .nil _
  | c :: cs, cs', he => by
    simp only [List.map_cons] at he
    cases hc : (f.visited.lookup c).join with
    | none => rw [hc] at he; simp [allSome] at he
    | some v =>
      rw [hc] at he
      simp only [allSome, Option.map_eq_some_iff] at he
      obtain ⟨vs, h1, rfl⟩ := he
      refine .cons _ _ _ _ _ (h c v ?_) (allSome_evalList h cs vs h1)
      cases hl : f.visited.lookup c with
      | none => rw [hl] at hc; simp at hc
      | some w => rw [hl] at hc; simp at hc; rw [hc]

theorem EvalList.length {ctx : Ctx} {cs cs' : List Term} : EvalList O P ctx cs cs' → cs.length = cs'.length := by
  intro h
  induction cs generalizing cs' with
  | nil => cases h; rfl
  | cons c cs ih => cases h with | cons _ _ _ _ _ _ h2 => simp [ih h2]

theorem rebuild_eq (k : Kind) (cs cs' : List Term) : rebuild (.node k cs) cs' = .node k cs' := by
  unfold rebuild; split
  · rename_i h; simp only [Term.children] at h; rw [h]
  · rfl

/-- `finish` with a justified result -/
theorem finish_some {t : Term} {ctx : Ctx} {f : Frame} {fs : List Frame} {tr : List (List Term × Option Term)}
    {cur : Term} {rest : List Term} {cch : List (Option Term)} {v : Term} {m' : Mach}
    (hc : Chain O P t ctx (f :: fs)) (ht : TInv O P tr) (hv : Eval O P f.ctx cur v)
    (h : finish f fs tr cur rest cch (some v) = .next m') : MachInv O P t ctx m' := by
  simp only [finish, Step.next.injEq] at h
  subst h
  exact ⟨hc.set cur rest v hv, ht⟩

theorem finish_none {t : Term} {ctx : Ctx} {f : Frame} {fs : List Frame} {tr : List (List Term × Option Term)}
    {cur : Term} {rest : List Term} {m' : Mach} 
    (hc : Chain O P t ctx (f :: fs)) (ht : TInv O P tr)
    (hv : ∀ cs', EvalList O P f.ctx cur.children cs' → Eval O P f.ctx cur (rebuild cur cs'))
    (h : finish f fs tr cur rest (cur.children.map fun c => (f.visited.lookup c).join) none = .next m') :
    MachInv O P t ctx m' := by
  simp only [finish] at h
  split at h
  · rename_i cs he
    simp only [Step.next.injEq] at h
    subst h
    exact ⟨hc.set cur rest _ (hv cs (allSome_evalList hc.vinv _ _ he)), ht⟩
  · simp at h

end

variable (O : Kind → List Term → Out (Option Term)) (P : List Term → Out (Option (Term × Ctx)))

theorem node_of_children {t : Term} (h : t.children ≠ []) : ∃ k cs, t = .node k cs ∧ cs ≠ [] := by
  cases t with
  | sym => simp [Term.children] at h
  | lit => simp [Term.children] at h
  | node k cs => exact ⟨k, cs, rfl, h⟩

theorem finish_not_done {f : Frame} {fs : List Frame} {tr : List (List Term × Option Term)} {cur : Term} {rest : List Term}
    {cch : List (Option Term)} {r : Option Term} {v : Term} : finish f fs tr cur rest cch r ≠ .done v := by
  unfold finish
  split
  · simp
  · split <;> simp

theorem stepSecond_not_done {f : Frame} {fs : List Frame} {tr : List (List Term × Option Term)} {cur : Term}
    {rest : List Term} {v : Term} : stepSecond O P f fs tr cur rest ≠ .done v := by
  unfold stepSecond
  dsimp only
  split
  · split
    · split
      · unfold stepProg
        split
        · simp
        · split
          · exact finish_not_done
          · split
            · exact finish_not_done
            · split
              · exact finish_not_done
              · simp
            · simp
            · simp
      · exact finish_not_done
    · simp
  · split
    · split
      · split
        · split
          · simp
          · exact finish_not_done
        · split
          · simp
          · exact finish_not_done
      · simp
    · split
      · split
        · simp
        · split
          · exact finish_not_done
          · simp
          · simp
      · exact finish_not_done

theorem stepCur_not_done {f : Frame} {fs : List Frame} {tr : List (List Term × Option Term)} {cur : Term}
    {rest : List Term} {v : Term} : stepCur O P f fs tr cur rest ≠ .done v := by
  unfold stepCur
  split
  · simp
  · split
    · split <;> simp
    · split
      · split
        · split <;> simp
        · simp
      · simp
      · exact stepSecond_not_done O P

theorem stepSecond_sound {t : Term} {ctx : Ctx} {f : Frame} {fs : List Frame} {tr : List (List Term × Option Term)}
    {cur : Term} {rest : List Term} {m' : Mach} (hvis : f.visit = cur :: rest) (hcc : cur.children = [] → ¬ IsParam cur)
    (hns : cur.children = [] → isLiteralOp cur.kind = false)
    (hc : Chain (ofOp O) (ofProg P) t ctx (f :: fs)) (ht : TInv (ofOp O) (ofProg P) tr)
    (h : stepSecond O P f fs tr cur rest = .next m') : MachInv (ofOp O) (ofProg P) t ctx m' := by
  have hV := hc.vinv
  unfold stepSecond at h
  dsimp only at h
  by_cases hch : cur.children = []
  · -- a leaf: rebuilt unchanged
    have hself : ∀ cs', EvalList (ofOp O) (ofProg P) f.ctx cur.children cs' →
        Eval (ofOp O) (ofProg P) f.ctx cur (rebuild cur cs') := by
      intro cs' hl
      rw [hch] at hl; cases hl
      simp only [rebuild, hch, if_true]
      exact .leaf _ _ (hcc hch) hch
    split at h
    · rw [hch] at h; simp at h
    · split at h
      · rw [hch] at h; simp at h
      · rw [hns hch] at h
        exact finish_none hc ht hself h
  · obtain ⟨k, cs, rfl, hcs⟩ := node_of_children hch
    by_cases hk : (Term.node k cs).kind = APPLY ∨ (Term.node k cs).kind = APPLY_OPAQUE
    · -- application
      rw [if_pos hk] at h
      simp only [kind_node, children_node] at *
      split at h
      · rename_i hd tl hcch
        split at h
        · -- a program
          rename_i hp
          unfold stepProg at h
          split at h
          · simp at h
          · rename_i cs' hall
            have hL := allSome_evalList hV _ _ hall
            obtain ⟨ps, rfl⟩ : ∃ ps, cs' = hd :: ps := by
              rw [hcch] at hall
              simp only [allSome, Option.map_eq_some_iff] at hall
              obtain ⟨a, _, rfl⟩ := hall
              exact ⟨a, rfl⟩
            split at h
            · -- cached
              rename_i r hr
              have hpv := ht _ _ hr
              cases r with
              | none =>
                refine finish_none hc ht ?_ h
                intro cs' hl
                rw [rebuild_eq, EvalList.det (ofOp_det O) (ofProg_det P) hl hL]
                exact .progStuck _ _ _ _ _ hk hL hp hpv
              | some v =>
                refine finish_some hc ht ?_ h
                obtain ⟨body, ctx', h1, h2⟩ := hpv
                rcases h2 with ⟨h2, rfl⟩ | ⟨h2, h3, h4⟩
                · exact .progConst _ _ _ _ _ _ _ hk hL hp h1 h2
                · exact .progRun _ _ _ _ _ _ _ _ hk hL hp h1 h2 h3 h4
            · split at h
              · rename_i hP
                refine finish_none hc (TInv.cons (cs := hd :: ps) (r := none) ht hP) ?_ h
                intro cs' hl
                rw [rebuild_eq, EvalList.det (ofOp_det O) (ofProg_det P) hl hL]
                exact .progStuck _ _ _ _ _ hk hL hp hP
              · rename_i body nctx hP
                split at h
                · rename_i hg
                  have hg' : body.ground = true ∨ nctx = [] := by
                    simpa [List.isEmpty_iff] using hg
                  refine finish_some hc (TInv.cons (cs := hd :: ps) (r := some body) ht ⟨body, nctx, hP, .inl ⟨hg', rfl⟩⟩) ?_ h
                  exact .progConst _ _ _ _ _ _ _ hk hL hp hP hg'
                · rename_i hg
                  simp only [Bool.or_eq_true, List.isEmpty_iff, not_or, Bool.not_eq_true] at hg
                  simp only [Step.next.injEq] at h
                  subst h
                  refine ⟨⟨?_, ?_, hc⟩, ht⟩
                  · intro x v hx; simp at hx
                  · exact ⟨k, cs, rest, hd, ps, rfl, hP, hg.1, hg.2, hvis, hk, hp, hL⟩
              · simp at h
              · simp at h
        · -- another application
          rename_i hp
          refine finish_none hc ht ?_ h
          intro cs' hl
          rw [rebuild_eq]
          cases cs' with
          | nil => have := EvalList.length hl; simp only [children_node, List.length_nil, List.length_eq_zero_iff] at this; exact absurd this hcs
          | cons p ps =>
            refine .app _ _ _ _ _ hk hl ?_
            cases cs with
            | nil => simp at hcs
            | cons c cs =>
              cases hl with
              | cons _ _ _ _ _ h1 h2 =>
                simp only [List.map_cons, List.cons.injEq] at hcch
                have : Eval (ofOp O) (ofProg P) f.ctx c hd := by
                  apply hV
                  have h3 := hcch.1
                  cases hl : f.visited.lookup c with
                  | none => rw [hl] at h3; simp at h3
                  | some w => rw [hl] at h3; simp at h3; rw [h3]
                rw [Eval.det (ofOp_det O) (ofProg_det P) h1 this]
                exact hp
      · simp at h
    · rw [if_neg hk] at h
      by_cases hk' : (Term.node k cs).kind = EVAL_IF_THEN_ELSE
      · -- ite
        rw [if_pos hk'] at h
        simp only [kind_node, children_node] at *
        subst hk'
        split at h
        · rename_i c0 t1 t2 c a b he2
          simp only [List.map_cons, List.map_nil, List.cons.injEq, and_true] at he2
          have look : ∀ x v, (f.visited.lookup x).join = some v → Eval (ofOp O) (ofProg P) f.ctx x v := by
            intro x v hx
            apply hV
            cases hl : f.visited.lookup x with
            | none => rw [hl] at hx; simp at hx
            | some w => rw [hl] at hx; simp at hx; rw [hx]
          have hc0 := look c0 c he2.1
          split at h
          · rename_i bv
            split at h
            · simp only [Step.next.injEq] at h
              subst h
              exact ⟨hc.top rfl rfl rfl hV, ht⟩
            · rename_i e hsel
              refine finish_some hc ht ?_ h
              refine .ite _ _ _ _ bv _ hc0 ?_
              cases bv
              · exact look t2 e (by rw [he2.2.2]; simpa using hsel)
              · exact look t1 e (by rw [he2.2.1]; simpa using hsel)
          · rename_i hnb
            split at h
            · simp only [Step.next.injEq] at h
              subst h
              exact ⟨hc.top rfl rfl rfl hV, ht⟩
            · refine finish_none hc ht ?_ h
              intro cs' hl
              rw [rebuild_eq]
              cases hl with
              | cons _ _ _ _ _ h1 hl => cases hl with
                | cons _ _ _ _ _ h2 hl => cases hl with
                  | cons _ _ _ _ _ h3 hl =>
                    cases hl
                    refine .iteStuck _ _ _ _ _ _ _ h1 ?_ h2 h3
                    intro bv hb
                    have := Eval.det (ofOp_det O) (ofProg_det P) h1 hc0
                    rw [hb] at this
                    exact hnb bv this.symm
        · simp at h
      · rw [if_neg hk'] at h
        by_cases hlit : isLiteralOp (Term.node k cs).kind = true
        · -- builtin operator
          rw [if_pos hlit] at h
          simp only [kind_node, children_node] at *
          split at h
          · simp at h
          · rename_i cs' hall
            have hL := allSome_evalList hV _ _ hall
            split at h
            · rename_i r hr
              cases r with
              | none =>
                refine finish_none hc ht ?_ h
                intro cs'' hl
                rw [rebuild_eq, EvalList.det (ofOp_det O) (ofProg_det P) hl hL]
                exact .opStuck _ _ _ _ hlit hk' hcs hL hr
              | some v =>
                refine finish_some hc ht ?_ h
                exact .op _ _ _ _ _ hlit hk' hcs hL hr
            · simp at h
            · simp at h
        · rw [if_neg hlit] at h
          simp only [kind_node, children_node] at *
          refine finish_none hc ht ?_ h
          intro cs' hl
          rw [rebuild_eq]
          exact .other _ _ _ _ (by simpa using hlit) (fun e => hk (.inl e)) (fun e => hk (.inr e)) hcs hl

theorem VInv.mark {O' : Kind → List Term → Option Term → Prop} {P' : List Term → Option (Term × Ctx) → Prop} {f : Frame}
    (h : VInv O' P' f) (cur : Term) (vis : List Term) :
    VInv O' P' { f with visited := (cur, none) :: f.visited, visit := vis } := by
  intro x v hx
  simp only at hx ⊢
  rw [lookup_cons'] at hx
  split at hx
  · simp at hx
  · exact h x v hx

theorem stepCur_sound {t : Term} {ctx : Ctx} {f : Frame} {fs : List Frame} {tr : List (List Term × Option Term)}
    {cur : Term} {rest : List Term} {m' : Mach} (hvis : f.visit = cur :: rest)
    (hc : Chain (ofOp O) (ofProg P) t ctx (f :: fs)) (ht : TInv (ofOp O) (ofProg P) tr)
    (h : stepCur O P f fs tr cur rest = .next m') : MachInv (ofOp O) (ofProg P) t ctx m' := by
  have hV := hc.vinv
  unfold stepCur at h
  split at h
  · rename_i hs
    simp only [Bool.and_eq_true, Bool.not_eq_true', Bool.or_eq_true, List.isEmpty_iff] at hs
    simp only [Step.next.injEq] at h
    subst h
    exact ⟨hc.set _ _ _ (Eval.self _ _ hs.1 hs.2), ht⟩
  · rename_i hs
    split at h
    · rename_i hp
      split at h
      · rename_i v hv
        simp only [Step.next.injEq] at h; subst h
        exact ⟨hc.set _ _ _ (.bound _ _ _ hp hv), ht⟩
      · rename_i hv
        simp only [Step.next.injEq] at h; subst h
        exact ⟨hc.set _ _ _ (.free _ _ hp hv), ht⟩
    · rename_i hp
      have hleaf : cur.children = [] → isLiteralOp cur.kind = false := by
        intro hl
        rw [ground_leaf cur hl, evaluatable_leaf cur hl] at hs
        revert hs
        cases cur.kind <;> simp [Term.leafEval, Term.leafNonGround, isLiteralOp]
      split at h
      · split at h
        · rename_i hk
          split at h
          · simp only [Step.next.injEq] at h; subst h
            exact ⟨hc.top rfl rfl rfl (hV.mark _ _), ht⟩
          · rename_i hne
            simp only [Step.next.injEq] at h; subst h
            refine ⟨hc.set _ _ _ ?_, ht⟩
            have hch : cur.children ≠ [] := by
              intro he; have := hleaf he; rw [hk] at this; simp [isLiteralOp] at this
            obtain ⟨k, cs, rfl, hcs⟩ := node_of_children hch
            simp only [kind_node, children_node] at *
            subst hk
            refine .iteBad _ _ hcs ?_
            intro hl
            match cs, hl with
            | [a, b, c], _ => exact hne a b c rfl
        · simp only [Step.next.injEq] at h; subst h
          exact ⟨hc.top rfl rfl rfl (hV.mark _ _), ht⟩
      · simp only [Step.next.injEq] at h; subst h
        exact ⟨hc.top rfl rfl rfl hV, ht⟩
      · exact stepSecond_sound O P hvis (fun hl hp' => hp hp') hleaf hc ht h

/-- one step preserves the invariant, and a final state carries the value -/
theorem stepMach_sound {t : Term} {ctx : Ctx} {m : Mach} (hi : MachInv (ofOp O) (ofProg P) t ctx m) :
    (∀ m', stepMach O P m = .next m' → MachInv (ofOp O) (ofProg P) t ctx m') ∧
    (∀ v, stepMach O P m = .done v → Eval (ofOp O) (ofProg P) ctx t v) := by
  obtain ⟨hc, ht⟩ := hi
  unfold stepMach
  split
  · simp
  · rename_i f fs hst
    rw [hst] at hc
    split
    · rename_i cur rest hvis
      exact ⟨fun m' h => stepCur_sound O P hvis hc ht h, fun v h => absurd h (stepCur_not_done O P)⟩
    · split
      · rename_i v hv
        have hev := hc.vinv _ _ hv
        dsimp only
        cases fs with
        | nil =>
          refine ⟨by simp, ?_⟩
          intro w hw
          simp only [Step.done.injEq] at hw
          subst hw
          obtain ⟨h1, h2, _⟩ := hc
          rw [← h1, ← h2]; exact hev
        | cons g gs =>
          dsimp only
          split
          · simp
          · rename_i c r hgv
            refine ⟨?_, by simp⟩
            intro m' h
            simp only [Step.next.injEq] at h
            subst h
            obtain ⟨_, ⟨k, cs, rest, p, ps, a1, a2, a3, a4, a5, a6, a7, a8⟩, h3⟩ := hc
            rw [a1]
            rw [hgv] at a5
            injection a5 with e1 e2
            subst e1
            refine ⟨h3.set _ _ _ ?_, ht.cons ⟨f.init, f.ctx, a2, .inr ⟨a3, a4, hev⟩⟩⟩
            exact .progRun _ _ _ _ _ _ _ _ a6 a8 a7 a2 a3 a4 hev
      · simp

theorem runMach_sound {t : Term} {ctx : Ctx} {v : Term} : ∀ (n : Nat) (m : Mach), MachInv (ofOp O) (ofProg P) t ctx m →
    runMach O P n m = .ok v → Eval (ofOp O) (ofProg P) ctx t v
  | 0, m, _, h => by simp [runMach] at h
  | n+1, m, hi, h => by
    unfold runMach at h
    split at h
    · rename_i m' hm
      exact runMach_sound n m' ((stepMach_sound O P hi).1 m' hm) h
    · rename_i w hw
      simp only [Out.ok.injEq] at h; subst h
      exact (stepMach_sound O P hi).2 _ hw
    · simp at h
    · simp at h

theorem initMach_inv {O' : Kind → List Term → Option Term → Prop} {P' : List Term → Option (Term × Ctx) → Prop}
    (t : Term) (ctx : Ctx) : MachInv O' P' t ctx (initMach t ctx) := by
  refine ⟨⟨rfl, rfl, rfl, ?_⟩, ?_⟩
  · intro x v h; simp at h
  · intro x v h; simp [initMach] at h

end Ethos.Props
