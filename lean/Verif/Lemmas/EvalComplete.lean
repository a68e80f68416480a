import Verif.Lemmas.EvalMono
/- Completeness of the evaluation machine: every big-step derivation is found. -/
namespace Ethos.Props
open Ethos Kind Spec

section
variable (O : Kind → List Term → Out (Option Term)) (P : List Term → Out (Option (Term × Ctx)))

inductive Steps : Mach → Mach → Prop
  | refl (m) : Steps m m
  | head (m m' m'') : stepMach O P m = .next m' → Steps m' m'' → Steps m m''

variable {O P}
theorem Steps.trans {a b c : Mach} (h : Steps O P a b) (h' : Steps O P b c) : Steps O P a c := by
  induction h with
  | refl => exact h'
  | head m m' m'' hs _ ih => exact .head _ _ _ hs (ih h')

theorem Steps.one {a b : Mach} (h : stepMach O P a = .next b) : Steps O P a b := .head _ _ _ h (.refl _)

theorem Steps.run {a b : Mach} {v : Term} (h : Steps O P a b) (hd : stepMach O P b = .done v) :
    ∃ n, runMach O P n a = .ok v := by
  induction h with
  | refl => exact ⟨1, by simp [runMach, hd]⟩
  | head m m' m'' hs _ ih =>
    obtain ⟨n, hn⟩ := ih hd
    exact ⟨n+1, by simp [runMach, hs, hn]⟩

/-- what visiting a term adds to the top frame -/
structure Post (O : Kind → List Term → Out (Option Term)) (P : List Term → Out (Option (Term × Ctx)))
    (f f' : Frame) (rest : List Term) (tr' : List (List Term × Option Term)) : Prop where
  init : f'.init = f.init
  ctx : f'.ctx = f.ctx
  key : f'.key = f.key
  visit : f'.visit = rest
  vinv : VInv (ofOp O) (ofProg P) f'
  tinv : TInv (ofOp O) (ofProg P) tr'
  keep : ∀ x w, f.visited.lookup x = some (some w) → f'.visited.lookup x = some (some w)
  prog : ∀ x, f'.visited.lookup x = some none ↔ f.visited.lookup x = some none

/-- the entries in progress are larger than `t` -/
def Big (f : Frame) (t : Term) : Prop := ∀ x, f.visited.lookup x = some none → t.size < x.size

theorem Post.trans {f g h : Frame} {r r' : List Term} {tr tr' : List (List Term × Option Term)}
    (a : Post O P f g r tr) (b : Post O P g h r' tr') : Post O P f h r' tr' where
  init := b.init.trans a.init
  ctx := b.ctx.trans a.ctx
  key := b.key.trans a.key
  visit := b.visit
  vinv := b.vinv
  tinv := b.tinv
  keep := fun x w hx => b.keep x w (a.keep x w hx)
  prog := fun x => (b.prog x).trans (a.prog x)

/-- `set` on a justified value -/
theorem Post.set {f : Frame} {tr : List (List Term × Option Term)} (hV : VInv (ofOp O) (ofProg P) f)
    (hT : TInv (ofOp O) (ofProg P) tr) (t : Term) (rest : List Term) (v : Term) (hv : Eval (ofOp O) (ofProg P) f.ctx t v)
    (hB : Big f t) : Post O P f (f.set t rest v) rest tr where
  init := rfl
  ctx := rfl
  key := rfl
  visit := rfl
  vinv := hV.set t rest v hv
  tinv := hT
  keep := by
    intro x w hx
    simp only [Frame.set]
    rw [lookup_cons']
    split
    · rename_i he; subst he
      rw [Eval.det (ofOp_det O) (ofProg_det P) (hV _ _ hx) hv]
    · exact hx
  prog := by
    intro x
    simp only [Frame.set]
    rw [lookup_cons']
    split
    · rename_i he; subst he
      simp only [Option.some.injEq, reduceCtorEq, false_iff]
      exact fun hx => Nat.lt_irrefl _ (hB _ hx)
    · exact Iff.rfl

theorem lookup_set (f : Frame) (t : Term) (rest : List Term) (v : Term) :
    (f.set t rest v).visited.lookup t = some (some v) := by
  simp only [Frame.set]; rw [lookup_cons']; simp

/-- visiting `t` in any frame computes `v` -/
def Comp (O : Kind → List Term → Out (Option Term)) (P : List Term → Out (Option (Term × Ctx))) (ctx : Ctx) (t v : Term) :
    Prop :=
  ∀ (f : Frame) (fs : List Frame) (tr : List (List Term × Option Term)) (rest : List Term),
    f.ctx = ctx → VInv (ofOp O) (ofProg P) f → TInv (ofOp O) (ofProg P) tr → Big f t → f.visit = t :: rest →
    ∃ f' tr', Steps O P ⟨f :: fs, tr⟩ ⟨f' :: fs, tr'⟩ ∧ Post O P f f' rest tr' ∧ f'.visited.lookup t = some (some v)

/-- the part of `Comp` for terms that are neither shortcuts nor parameters and have not been visited -/
def CompMain (O : Kind → List Term → Out (Option Term)) (P : List Term → Out (Option (Term × Ctx))) (ctx : Ctx) (t v : Term) :
    Prop :=
  ∀ (f : Frame) (fs : List Frame) (tr : List (List Term × Option Term)) (rest : List Term),
    f.ctx = ctx → VInv (ofOp O) (ofProg P) f → TInv (ofOp O) (ofProg P) tr → Big f t → f.visit = t :: rest →
    (!t.evaluatable && (t.ground || f.ctx.isEmpty)) = false → ¬ (t.kind = PARAM ∧ t.children = []) →
    f.visited.lookup t = none →
    ∃ f' tr', Steps O P ⟨f :: fs, tr⟩ ⟨f' :: fs, tr'⟩ ∧ Post O P f f' rest tr' ∧ f'.visited.lookup t = some (some v)

theorem stepMach_cur {f : Frame} {fs : List Frame} {tr : List (List Term × Option Term)} {t : Term} {rest : List Term}
    (h : f.visit = t :: rest) : stepMach O P ⟨f :: fs, tr⟩ = stepCur O P f fs tr t rest := by
  simp only [stepMach, h]

theorem Comp.of_main {ctx : Ctx} {t v : Term} (hev : Eval (ofOp O) (ofProg P) ctx t v) (h : CompMain O P ctx t v) :
    Comp O P ctx t v := by
  intro f fs tr rest hctx hV hT hB hvis
  by_cases hs : (!t.evaluatable && (t.ground || f.ctx.isEmpty)) = true
  · have hs' := hs
    simp only [Bool.and_eq_true, Bool.not_eq_true', Bool.or_eq_true, List.isEmpty_iff] at hs
    have he : Eval (ofOp O) (ofProg P) f.ctx t t := Eval.self _ _ hs.1 hs.2
    have : v = t := Eval.det (ofOp_det O) (ofProg_det P) hev (hctx ▸ he)
    subst this
    refine ⟨_, tr, .one ?_, Post.set hV hT _ rest _ he hB, lookup_set _ _ _ _⟩
    rw [stepMach_cur hvis]; unfold stepCur; rw [if_pos hs']
  · by_cases hp : t.kind = PARAM ∧ t.children = []
    · refine ⟨f.set t rest v, tr, .one ?_, Post.set hV hT _ rest _ (hctx ▸ hev) hB, lookup_set _ _ _ _⟩
      rw [stepMach_cur hvis]; unfold stepCur; rw [if_neg hs, if_pos hp]
      cases hf : f.ctx.find t with
      | none =>
        have := Eval.det (ofOp_det O) (ofProg_det P) hev (Eval.free ctx t hp (hctx ▸ hf)); subst this; rfl
      | some w =>
        have := Eval.det (ofOp_det O) (ofProg_det P) hev (Eval.bound ctx t w hp (hctx ▸ hf)); subst this; rfl
    · cases hl : f.visited.lookup t with
      | none => exact h f fs tr rest hctx hV hT hB hvis (by simpa using hs) hp hl
      | some w =>
        cases w with
        | none => exact absurd (hB t hl) (Nat.lt_irrefl _)
        | some w =>
          have hw := Eval.det (ofOp_det O) (ofProg_det P) hev (hctx ▸ hV _ _ hl); subst hw
          refine ⟨{ f with visit := rest }, tr, .one ?_, ?_, hl⟩
          · rw [stepMach_cur hvis]; unfold stepCur; rw [if_neg hs, if_neg hp]
            simp only [hl]
          · exact ⟨rfl, rfl, rfl, rfl, hV, hT, fun _ _ h => h, fun _ => Iff.rfl⟩

/-- the frame after marking `t` and pushing `vis` -/
def Frame.mark (f : Frame) (t : Term) (vis : List Term) : Frame :=
  { f with visited := (t, none) :: f.visited, visit := vis }

theorem lookup_mark (f : Frame) (t : Term) (vis : List Term) (x : Term) :
    (Frame.mark f t vis).visited.lookup x = if x = t then some none else f.visited.lookup x := by
  simp only [Frame.mark]; rw [lookup_cons']

theorem Big.mark {f : Frame} {t c : Term} (h : Big f t) (vis : List Term) (hc : c.size < t.size) : Big (Frame.mark f t vis) c := by
  intro x hx
  rw [lookup_mark] at hx
  split at hx
  · rename_i he; subst he; exact hc
  · exact Nat.lt_trans hc (h x hx)

/-- after marking, visiting children and storing the value -/
theorem Post.finish {f g : Frame} {t : Term} {vis rest rest' : List Term} {tr tr' : List (List Term × Option Term)} {v : Term}
    (hl : f.visited.lookup t = none) (hp : Post O P (Frame.mark f t vis) g rest' tr) (hT : TInv (ofOp O) (ofProg P) tr')
    (hv : Eval (ofOp O) (ofProg P) g.ctx t v) : Post O P f (g.set t rest v) rest tr' where
  init := hp.init
  ctx := hp.ctx
  key := hp.key
  visit := rfl
  vinv := hp.vinv.set _ _ _ hv
  tinv := hT
  keep := by
    intro x w hx
    have hne : x ≠ t := by rintro rfl; rw [hl] at hx; simp at hx
    simp only [Frame.set]; rw [lookup_cons', if_neg hne]
    apply hp.keep
    rw [lookup_mark, if_neg hne]; exact hx
  prog := by
    intro x
    simp only [Frame.set]
    rw [lookup_cons']
    split
    · rename_i he; subst he
      rw [hl]; simp
    · rename_i hne
      rw [hp.prog x, lookup_mark, if_neg hne]

theorem Post.marked {f g : Frame} {t : Term} {vis rest' : List Term} {tr : List (List Term × Option Term)}
    (hp : Post O P (Frame.mark f t vis) g rest' tr) : g.visited.lookup t = some none := by
  rw [hp.prog, lookup_mark, if_pos rfl]

/-- the values of `cs` in the visited map -/
def looks (f : Frame) (cs : List Term) : List (Option Term) := cs.map fun c => (f.visited.lookup c).join

theorem allSome_keep {f g : Frame} (hk : ∀ x w, f.visited.lookup x = some (some w) → g.visited.lookup x = some (some w)) :
    ∀ (cs vs : List Term), allSome (looks f cs) = some vs → allSome (looks g cs) = some vs
  | [], vs, h => h
  | c :: cs, vs, h => by
    simp only [looks, List.map_cons] at h ⊢
    cases hc : f.visited.lookup c with
    | none => rw [hc] at h; simp [allSome] at h
    | some w => cases w with
      | none => rw [hc] at h; simp [allSome] at h
      | some w =>
        rw [hc] at h
        rw [hk c w hc]
        simp only [Option.join, Option.bind_some, id, allSome, Option.map_eq_some_iff] at h ⊢
        obtain ⟨a, h1, h2⟩ := h
        exact ⟨a, allSome_keep hk cs a h1, h2⟩

def CompList (O : Kind → List Term → Out (Option Term)) (P : List Term → Out (Option (Term × Ctx))) (ctx : Ctx)
    (cs vs : List Term) : Prop :=
  ∀ (f : Frame) (fs : List Frame) (tr : List (List Term × Option Term)) (rest : List Term),
    f.ctx = ctx → VInv (ofOp O) (ofProg P) f → TInv (ofOp O) (ofProg P) tr → (∀ c ∈ cs, Big f c) →
    f.visit = cs.reverse ++ rest →
    ∃ f' tr', Steps O P ⟨f :: fs, tr⟩ ⟨f' :: fs, tr'⟩ ∧ Post O P f f' rest tr' ∧ allSome (looks f' cs) = some vs

theorem CompList.nil (ctx : Ctx) : CompList O P ctx [] [] := by
  intro f fs tr rest _ hV hT _ hvis
  exact ⟨f, tr, .refl _, ⟨rfl, rfl, rfl, by simpa using hvis, hV, hT, fun _ _ h => h, fun _ => Iff.rfl⟩, rfl⟩

theorem CompList.cons {ctx : Ctx} {c v : Term} {cs vs : List Term} (h1 : Comp O P ctx c v) (h2 : CompList O P ctx cs vs) :
    CompList O P ctx (c :: cs) (v :: vs) := by
  intro f fs tr rest hctx hV hT hB hvis
  obtain ⟨g, tr1, s1, p1, l1⟩ := h2 f fs tr (c :: rest) hctx hV hT (fun c hc => hB c (by simp [hc])) (by simp [hvis])
  obtain ⟨h, tr2, s2, p2, l2⟩ := h1 g fs tr1 rest (p1.ctx.trans hctx) p1.vinv p1.tinv
    (fun x hx => hB c (by simp) x ((p1.prog x).mp hx)) p1.visit
  refine ⟨h, tr2, s1.trans s2, p1.trans p2, ?_⟩
  simp only [looks, List.map_cons, l2]
  have := allSome_keep p2.keep _ _ l1
  simp only [looks] at this
  rw [show (some (some v) : Option (Option Term)).join = some v from rfl]
  simp only [allSome, this, Option.map_some]

/-- the second visit of a marked term -/
theorem stepMach_second {g : Frame} {fs : List Frame} {tr : List (List Term × Option Term)} {t : Term} {rest : List Term}
    (hvis : g.visit = t :: rest) (hs : (!t.evaluatable && (t.ground || g.ctx.isEmpty)) = false)
    (hp : ¬ (t.kind = PARAM ∧ t.children = [])) (hl : g.visited.lookup t = some none) :
    stepMach O P ⟨g :: fs, tr⟩ = stepSecond O P g fs tr t rest := by
  rw [stepMach_cur hvis]; unfold stepCur
  rw [if_neg (by simp [hs]), if_neg hp]
  simp only [hl]

/-- a term all of whose children are visited: the first visit, the children, the second visit -/
theorem CompMain.children {ctx : Ctx} {t v : Term} {cs' : List Term} (hk : t.kind ≠ EVAL_IF_THEN_ELSE)
    (hev : Eval (ofOp O) (ofProg P) ctx t v) (hl : CompList O P ctx t.children cs')
    (hsec : ∀ (g : Frame) (fs : List Frame) (tr : List (List Term × Option Term)) (rest : List Term),
      g.ctx = ctx → (!t.evaluatable && (t.ground || g.ctx.isEmpty)) = false → VInv (ofOp O) (ofProg P) g →
      TInv (ofOp O) (ofProg P) tr → g.visit = t :: rest →
      allSome (looks g t.children) = some cs' → ∃ m' tr', stepSecond O P g fs tr t rest = .next m' ∧
        Steps O P m' ⟨g.set t rest v :: fs, tr'⟩ ∧ TInv (ofOp O) (ofProg P) tr') : CompMain O P ctx t v := by
  intro f fs tr rest hctx hV hT hB hvis hs hp hn
  obtain ⟨g, tr1, s1, p1, l1⟩ := hl (Frame.mark f t (t.children.reverse ++ t :: rest)) fs tr (t :: rest) hctx
    (hV.mark _ _) hT (fun c hc => hB.mark _ (size_child_lt hc)) rfl
  have hgs : (!t.evaluatable && (t.ground || g.ctx.isEmpty)) = false := by rw [p1.ctx]; exact hs
  obtain ⟨m', tr', e1, s2, ht'⟩ := hsec g fs tr1 rest (p1.ctx.trans hctx) hgs p1.vinv p1.tinv p1.visit l1
  refine ⟨g.set t rest v, tr', ?_, Post.finish hn p1 ht' (by rw [p1.ctx]; show Eval _ _ f.ctx t v; rw [hctx]; exact hev),
    lookup_set _ _ _ _⟩
  refine .head _ _ _ ?_ (s1.trans (.head _ _ _ ?_ s2))
  · rw [stepMach_cur hvis]; unfold stepCur
    rw [if_neg (by simp [hs]), if_neg hp]
    simp only [hn, if_neg hk]
    rfl
  · rw [stepMach_second p1.visit hgs hp p1.marked, e1]

theorem allSome_head {h : Term} {tl : List Term} {l : List (Option Term)} (ha : allSome l = some (h :: tl)) :
    ∃ l', l = some h :: l' := by
  cases l with
  | nil => simp [allSome] at ha
  | cons a l => cases a with
    | none => simp [allSome] at ha
    | some a =>
      simp only [allSome, Option.map_eq_some_iff] at ha
      obtain ⟨x, _, hx⟩ := ha
      injection hx with h1 h2
      subst h1
      exact ⟨l, rfl⟩

theorem finish_all {g : Frame} {fs : List Frame} {tr : List (List Term × Option Term)} {k : Kind} {cs cs' : List Term}
    {rest : List Term} {cch : List (Option Term)} (ha : allSome cch = some cs') :
    finish g fs tr (.node k cs) rest cch none = .next ⟨g.set (.node k cs) rest (.node k cs') :: fs, tr⟩ := by
  simp only [finish, ha, rebuild_eq]

theorem stepSecond_app {g : Frame} {fs : List Frame} {tr : List (List Term × Option Term)} {k : Kind} {cs : List Term}
    {p : Term} {ps : List Term}
    {rest : List Term} (hk : k = APPLY ∨ k = APPLY_OPAQUE) (ha : allSome (looks g cs) = some (p :: ps)) :
    stepSecond O P g fs tr (.node k cs) rest =
      if p.kind = PROGRAM_CONST ∧ p.children = [] then stepProg P g fs tr (.node k cs) rest (looks g cs)
      else finish g fs tr (.node k cs) rest (looks g cs) none := by
  obtain ⟨l, hl⟩ := allSome_head ha
  unfold stepSecond
  dsimp only
  rw [if_pos (by exact hk)]
  simp only [children_node]
  simp only [looks] at hl ⊢
  rw [hl]

/-- the second visit of a program application -/
theorem second_prog {ctx : Ctx} {k : Kind} {cs : List Term} {p : Term} {ps : List Term} {v : Term}
    (hk : k = APPLY ∨ k = APPLY_OPAQUE) (hp : IsProg p)
    (hval : (ProgVal (ofOp O) (ofProg P) (p :: ps) none ∧ v = .node k (p :: ps)) ∨
      ProgVal (ofOp O) (ofProg P) (p :: ps) (some v))
    (hrun : ∀ body ctx', P (p :: ps) = .ok (some (body, ctx')) → body.ground = false → ctx' ≠ [] → Comp O P ctx' body v)
    (g : Frame) (fs : List Frame) (tr : List (List Term × Option Term)) (rest : List Term)
    (_hctx : g.ctx = ctx) (hT : TInv (ofOp O) (ofProg P) tr) (hvis : g.visit = .node k cs :: rest)
    (ha : allSome (looks g cs) = some (p :: ps)) :
    ∃ m' tr', stepSecond O P g fs tr (.node k cs) rest = .next m' ∧
        Steps O P m' ⟨g.set (.node k cs) rest v :: fs, tr'⟩ ∧ TInv (ofOp O) (ofProg P) tr' := by
  have hp' : p.kind = PROGRAM_CONST ∧ p.children = [] := hp
  rw [stepSecond_app hk ha, if_pos hp']
  unfold stepProg
  simp only [ha]
  cases hl : tr.lookup (p :: ps) with
  | some r =>
    have hr := hT _ _ hl
    refine ⟨_, tr, ?_, .refl _, hT⟩
    cases r with
    | none =>
      rcases hval with ⟨_, rfl⟩ | hv
      · exact finish_all ha
      · obtain ⟨body, ctx', h1, _⟩ := hv
        have := ofProg_det P _ _ _ hr h1
        simp at this
    | some w =>
      simp only [finish, Step.next.injEq]
      have hw : w = v := by
        obtain ⟨body, ctx', h1, h2⟩ := hr
        rcases hval with ⟨hv, _⟩ | hv
        · have := ofProg_det P _ _ _ hv h1
          simp at this
        · obtain ⟨body2, ctx2, h3, h4⟩ := hv
          have := ofProg_det P _ _ _ h1 h3
          simp only [Option.some.injEq, Prod.mk.injEq] at this
          obtain ⟨rfl, rfl⟩ := this
          rcases h2 with ⟨h2, rfl⟩ | ⟨a1, a2, a3⟩ <;> rcases h4 with ⟨h4, rfl⟩ | ⟨b1, b2, b3⟩
          · rfl
          · rcases h2 with h2 | h2
            · rw [h2] at b1; simp at b1
            · exact absurd h2 b2
          · rcases h4 with h4 | h4
            · rw [h4] at a1; simp at a1
            · exact absurd h4 a2
          · exact Eval.det (ofOp_det O) (ofProg_det P) a3 b3
      rw [hw]
  | none =>
    dsimp only
    rcases hval with ⟨hv, rfl⟩ | hv
    · have hv' : P (p :: ps) = .ok none := hv
      rw [hv']
      exact ⟨_, _, finish_all ha, .refl _, TInv.cons (cs := p :: ps) (r := none) hT hv⟩
    · obtain ⟨body, ctx', h1, h2⟩ := id hv
      have h1' : P (p :: ps) = .ok (some (body, ctx')) := h1
      rw [h1']
      dsimp only
      rcases h2 with ⟨h2, rfl⟩ | ⟨a1, a2, a3⟩
      · rw [if_pos (by simpa [List.isEmpty_iff] using h2)]
        exact ⟨_, _, rfl, .refl _, TInv.cons (cs := p :: ps) (r := some v) hT hv⟩
      · rw [if_neg (by simp [a1, List.isEmpty_iff, a2])]
        obtain ⟨f', tr', s1, p1, l1⟩ := hrun body ctx' h1' a1 a2 ⟨body, ctx', [], [body], some (p :: ps)⟩ (g :: fs) tr []
          rfl (by intro x w hx; simp at hx) hT (by intro x hx; simp at hx) rfl
        refine ⟨_, (p :: ps, some v) :: tr', rfl, s1.trans (.one ?_), TInv.cons (cs := p :: ps) (r := some v) p1.tinv hv⟩
        have hi : f'.init = body := p1.init
        have hk' : f'.key = some (p :: ps) := p1.key
        simp only [stepMach, p1.visit, hi, l1, hk', hvis]

/-- the first visit of an `eo::ite` -/
theorem ite_first {f : Frame} {fs : List Frame} {tr : List (List Term × Option Term)} {c x y : Term} {rest : List Term}
    (hvis : f.visit = .node EVAL_IF_THEN_ELSE [c, x, y] :: rest)
    (hs : (!(Term.node EVAL_IF_THEN_ELSE [c, x, y]).evaluatable && ((Term.node EVAL_IF_THEN_ELSE [c, x, y]).ground || f.ctx.isEmpty)) = false)
    (hn : f.visited.lookup (.node EVAL_IF_THEN_ELSE [c, x, y]) = none) :
    stepMach O P ⟨f :: fs, tr⟩ = .next ⟨Frame.mark f (.node EVAL_IF_THEN_ELSE [c, x, y])
      (c :: .node EVAL_IF_THEN_ELSE [c, x, y] :: rest) :: fs, tr⟩ := by
  rw [stepMach_cur hvis]; unfold stepCur
  rw [if_neg (by simp [hs]), if_neg (by simp [Term.children])]
  simp only [hn]
  rw [if_pos (by rfl)]
  rfl

/-- the second visit of an `eo::ite` -/
theorem ite_second {g : Frame} {fs : List Frame} {tr : List (List Term × Option Term)} {c x y c' : Term} {rest : List Term}
    (hc : g.visited.lookup c = some (some c')) :
    stepSecond O P g fs tr (.node EVAL_IF_THEN_ELSE [c, x, y]) rest =
      match (generalizing := false) c' with
      | .lit (.bool v) =>
        match (if v then (g.visited.lookup x).join else (g.visited.lookup y).join) with
        | none => .next ⟨{ g with visit := (if v then x else y) :: .node EVAL_IF_THEN_ELSE [c, x, y] :: rest } :: fs, tr⟩
        | some e => .next ⟨g.set (.node EVAL_IF_THEN_ELSE [c, x, y]) rest e :: fs, tr⟩
      | _ =>
        if (g.visited.lookup x).join.isNone || (g.visited.lookup y).join.isNone then
          .next ⟨{ g with visit := (if (g.visited.lookup y).join.isNone then [y] else []) ++
            (if (g.visited.lookup x).join.isNone then [x] else []) ++ .node EVAL_IF_THEN_ELSE [c, x, y] :: rest }
            :: fs, tr⟩
        else finish g fs tr (.node EVAL_IF_THEN_ELSE [c, x, y]) rest (looks g [c, x, y]) none := by
  unfold stepSecond
  dsimp only
  rw [if_neg (by simp [Term.kind]), if_pos (by rfl)]
  simp only [children_node, List.map_cons, List.map_nil, hc]
  rw [show (some (some c') : Option (Option Term)).join = some c' from rfl]
  simp only [looks, List.map_cons, List.map_nil, hc]
  rfl

theorem join_of {o : Option (Option Term)} {v : Term} (h : o.join = some v) : o = some (some v) := by
  cases o with
  | none => simp at h
  | some w => simp at h; rw [h]

/-- visit a term unless it has been visited -/
theorem Comp.unless {ctx : Ctx} {t v : Term} (h : Comp O P ctx t v) (f : Frame) (fs : List Frame)
    (tr : List (List Term × Option Term)) (rest : List Term) (hctx : f.ctx = ctx) (hV : VInv (ofOp O) (ofProg P) f)
    (hT : TInv (ofOp O) (ofProg P) tr) (hB : Big f t) (b : Bool)
    (hb : b = false → ∃ w, f.visited.lookup t = some (some w)) (hev : Eval (ofOp O) (ofProg P) ctx t v)
    (hvis : f.visit = (if b then [t] else []) ++ rest) :
    ∃ f' tr', Steps O P ⟨f :: fs, tr⟩ ⟨f' :: fs, tr'⟩ ∧ Post O P f f' rest tr' ∧ f'.visited.lookup t = some (some v) := by
  cases b with
  | true => exact h f fs tr rest hctx hV hT hB (by simpa using hvis)
  | false =>
    obtain ⟨w, hw⟩ := hb rfl
    have : w = v := Eval.det (ofOp_det O) (ofProg_det P) (hctx ▸ hV _ _ hw) hev
    subst this
    exact ⟨f, tr, .refl _, ⟨rfl, rfl, rfl, by simpa using hvis, hV, hT, fun _ _ h => h, fun _ => Iff.rfl⟩, hw⟩

/-- a frame whose visit stack alone was changed -/
theorem Post.push {f : Frame} {tr : List (List Term × Option Term)} (hV : VInv (ofOp O) (ofProg P) f)
    (hT : TInv (ofOp O) (ofProg P) tr) (vis : List Term) : Post O P f { f with visit := vis } vis tr :=
  ⟨rfl, rfl, rfl, rfl, hV, hT, fun _ _ h => h, fun _ => Iff.rfl⟩

theorem CompMain.ite {ctx : Ctx} {c x y v : Term} {b : Bool} (h1 : Comp O P ctx c (boolVal b))
    (h2 : Comp O P ctx (if b then x else y) v) (hev : Eval (ofOp O) (ofProg P) ctx (.node EVAL_IF_THEN_ELSE [c, x, y]) v)
    (hev2 : Eval (ofOp O) (ofProg P) ctx (if b then x else y) v) :
    CompMain O P ctx (.node EVAL_IF_THEN_ELSE [c, x, y]) v := by
  intro f fs tr rest hctx hV hT hB hvis hs hp hn
  have hsz : ∀ z ∈ [c, x, y], z.size < (Term.node EVAL_IF_THEN_ELSE [c, x, y]).size := fun z hz => size_child_lt hz
  obtain ⟨g, tr1, s1, p1, l1⟩ := h1 (Frame.mark f (.node EVAL_IF_THEN_ELSE [c, x, y])
      (c :: .node EVAL_IF_THEN_ELSE [c, x, y] :: rest)) fs tr (.node EVAL_IF_THEN_ELSE [c, x, y] :: rest) hctx (hV.mark _ _) hT
      (hB.mark _ (hsz c (by simp))) rfl
  have hgctx : g.ctx = ctx := p1.ctx.trans hctx
  have hgs : (!(Term.node EVAL_IF_THEN_ELSE [c, x, y]).evaluatable &&
      ((Term.node EVAL_IF_THEN_ELSE [c, x, y]).ground || g.ctx.isEmpty)) = false := by rw [p1.ctx]; exact hs
  have hst := ite_second (O := O) (P := P) (g := g) (fs := fs) (tr := tr1) (x := x) (y := y) (rest := rest) l1
  rw [← stepMach_second p1.visit hgs hp p1.marked] at hst
  simp only [boolVal] at hst
  have hfirst := ite_first (O := O) (P := P) (fs := fs) (tr := tr) hvis hs hn
  cases hsel : (if b then (g.visited.lookup x).join else (g.visited.lookup y).join) with
  | some e =>
    rw [hsel] at hst
    have he : e = v := by
      have : g.visited.lookup (if b then x else y) = some (some e) := by
        apply join_of; cases b <;> simpa using hsel
      exact Eval.det (ofOp_det O) (ofProg_det P) (hgctx ▸ p1.vinv _ _ this) hev2
    subst he
    exact ⟨_, tr1, .head _ _ _ hfirst (s1.trans (.one hst)), Post.finish hn p1 p1.tinv (hgctx ▸ hev), lookup_set _ _ _ _⟩
  | none =>
    rw [hsel] at hst
    have hsub : (if b then x else y).size < (Term.node EVAL_IF_THEN_ELSE [c, x, y]).size := by
      apply hsz; cases b <;> simp
    obtain ⟨g2, tr2, s2, p2, l2⟩ := h2 { g with visit := (if b then x else y) :: .node EVAL_IF_THEN_ELSE [c, x, y] :: rest } fs tr1
      (.node EVAL_IF_THEN_ELSE [c, x, y] :: rest) hgctx p1.vinv p1.tinv
      (fun z hz => (hB.mark (f := f) _ hsub) z ((p1.prog z).mp hz)) rfl
    have p12 : Post O P (Frame.mark f (.node EVAL_IF_THEN_ELSE [c, x, y]) (c :: .node EVAL_IF_THEN_ELSE [c, x, y] :: rest)) g2
      (.node EVAL_IF_THEN_ELSE [c, x, y] :: rest) tr2 := p1.trans ((Post.push p1.vinv p1.tinv _).trans p2)
    have hst2 := ite_second (O := O) (P := P) (g := g2) (fs := fs) (tr := tr2) (x := x) (y := y) (rest := rest) (p2.keep _ _ l1)
    rw [← stepMach_second p12.visit (by rw [p12.ctx]; exact hs) hp p12.marked] at hst2
    simp only [boolVal] at hst2
    have hsel2 : (if b then (g2.visited.lookup x).join else (g2.visited.lookup y).join) = some v := by
      cases b <;> simp at l2 ⊢ <;> simp [l2]
    rw [hsel2] at hst2
    exact ⟨_, tr2, .head _ _ _ hfirst (s1.trans (.head _ _ _ hst (s2.trans (.one hst2)))),
      Post.finish hn p12 p12.tinv ((p12.ctx.trans hctx) ▸ hev), lookup_set _ _ _ _⟩

theorem CompMain.iteStuck {ctx : Ctx} {c x y c' x' y' : Term} (h1 : Comp O P ctx c c') (hnb : ∀ b, c' ≠ boolVal b)
    (h2 : Comp O P ctx x x') (h3 : Comp O P ctx y y') (e2 : Eval (ofOp O) (ofProg P) ctx x x')
    (e3 : Eval (ofOp O) (ofProg P) ctx y y')
    (hev : Eval (ofOp O) (ofProg P) ctx (.node EVAL_IF_THEN_ELSE [c, x, y]) (.node EVAL_IF_THEN_ELSE [c', x', y'])) :
    CompMain O P ctx (.node EVAL_IF_THEN_ELSE [c, x, y]) (.node EVAL_IF_THEN_ELSE [c', x', y']) := by
  intro f fs tr rest hctx hV hT hB hvis hs hp hn
  have hsz : ∀ z ∈ [c, x, y], z.size < (Term.node EVAL_IF_THEN_ELSE [c, x, y]).size := fun z hz => size_child_lt hz
  obtain ⟨g, tr1, s1, p1, l1⟩ := h1 (Frame.mark f (.node EVAL_IF_THEN_ELSE [c, x, y])
      (c :: .node EVAL_IF_THEN_ELSE [c, x, y] :: rest)) fs tr (.node EVAL_IF_THEN_ELSE [c, x, y] :: rest) hctx (hV.mark _ _) hT
      (hB.mark _ (hsz c (by simp))) rfl
  have hgctx : g.ctx = ctx := p1.ctx.trans hctx
  have hgs : (!(Term.node EVAL_IF_THEN_ELSE [c, x, y]).evaluatable &&
      ((Term.node EVAL_IF_THEN_ELSE [c, x, y]).ground || g.ctx.isEmpty)) = false := by rw [p1.ctx]; exact hs
  have second : ∀ (g : Frame) (tr1 : List (List Term × Option Term)), g.visited.lookup c = some (some c') → 
      stepSecond O P g fs tr1 (.node EVAL_IF_THEN_ELSE [c, x, y]) rest = 
        if (g.visited.lookup x).join.isNone || (g.visited.lookup y).join.isNone then
          .next ⟨{ g with visit := (if (g.visited.lookup y).join.isNone then [y] else []) ++
            (if (g.visited.lookup x).join.isNone then [x] else []) ++ .node EVAL_IF_THEN_ELSE [c, x, y] :: rest }
            :: fs, tr1⟩
        else finish g fs tr1 (.node EVAL_IF_THEN_ELSE [c, x, y]) rest (looks g [c, x, y]) none := by
    intro g tr1 hc
    rw [ite_second hc]
    split
    · rename_i v; exact absurd rfl (hnb v)
    · rfl
  have hfirst := ite_first (O := O) (P := P) (fs := fs) (tr := tr) hvis hs hn
  -- the last visit, when all children are known
  have last : ∀ (g2 : Frame) (tr2 : List (List Term × Option Term)),
      Post O P (Frame.mark f (.node EVAL_IF_THEN_ELSE [c, x, y]) (c :: .node EVAL_IF_THEN_ELSE [c, x, y] :: rest)) g2
      (.node EVAL_IF_THEN_ELSE [c, x, y] :: rest) tr2 → g2.visited.lookup c = some (some c') →
      g2.visited.lookup x = some (some x') → g2.visited.lookup y = some (some y') →
      ∃ f' tr', Steps O P ⟨g2 :: fs, tr2⟩ ⟨f' :: fs, tr'⟩ ∧ Post O P f f' rest tr' ∧
        f'.visited.lookup (.node EVAL_IF_THEN_ELSE [c, x, y]) = some (some (.node EVAL_IF_THEN_ELSE [c', x', y'])) := by
    intro g2 tr2 p12 hc hx hy
    refine ⟨g2.set _ rest (.node EVAL_IF_THEN_ELSE [c', x', y']), tr2, .one ?_, Post.finish hn p12 p12.tinv ((p12.ctx.trans hctx) ▸ hev), lookup_set _ _ _ _⟩
    rw [stepMach_second p12.visit (by rw [p12.ctx]; exact hs) hp p12.marked, second g2 tr2 hc]
    rw [if_neg (by simp [hx, hy])]
    exact finish_all (by simp [looks, hc, hx, hy, allSome])
  by_cases hnone : ((g.visited.lookup x).join.isNone || (g.visited.lookup y).join.isNone) = true
  · have hst := second g tr1 l1
    rw [if_pos hnone, ← stepMach_second p1.visit hgs hp p1.marked] at hst
    have hknown : ∀ z, (g.visited.lookup z).join.isNone = false → ∃ w, g.visited.lookup z = some (some w) := by
      intro z hz
      cases hj : (g.visited.lookup z).join with
      | none => rw [hj] at hz; simp at hz
      | some w => exact ⟨w, join_of hj⟩
    obtain ⟨g2, tr2, s2, p2, l2⟩ := h3.unless { g with visit := (if (g.visited.lookup y).join.isNone then [y] else []) ++
            (if (g.visited.lookup x).join.isNone then [x] else []) ++ .node EVAL_IF_THEN_ELSE [c, x, y] :: rest } fs tr1
      ((if (g.visited.lookup x).join.isNone then [x] else []) ++ .node EVAL_IF_THEN_ELSE [c, x, y] :: rest) hgctx p1.vinv p1.tinv
      (fun z hz => (hB.mark (f := f) _ (hsz y (by simp))) z ((p1.prog z).mp hz)) (g.visited.lookup y).join.isNone
      (hknown y) e3 (by simp)
    have p12 := p1.trans ((Post.push p1.vinv p1.tinv _).trans p2)
    obtain ⟨g3, tr3, s3, p3, l3⟩ := h2.unless g2 fs tr2 (.node EVAL_IF_THEN_ELSE [c, x, y] :: rest) (p12.ctx.trans hctx) p2.vinv p2.tinv
      (fun z hz => (hB.mark (f := f) _ (hsz x (by simp))) z ((p12.prog z).mp hz)) (g.visited.lookup x).join.isNone
      (fun hz => by obtain ⟨w, hw⟩ := hknown x hz; exact ⟨w, p2.keep _ _ hw⟩) e2 p2.visit
    obtain ⟨f', tr', s4, p4, l4⟩ := last g3 tr3 (p12.trans p3) (p3.keep _ _ (p2.keep _ _ l1)) l3 (p3.keep _ _ l2)
    exact ⟨f', tr', .head _ _ _ hfirst (s1.trans (.head _ _ _ hst (s2.trans (s3.trans s4)))), p4, l4⟩
  · have hx : ∃ w, g.visited.lookup x = some (some w) := by
      cases hj : (g.visited.lookup x).join with
      | none => rw [hj] at hnone; simp at hnone
      | some w => exact ⟨w, join_of hj⟩
    have hy : ∃ w, g.visited.lookup y = some (some w) := by
      cases hj : (g.visited.lookup y).join with
      | none => rw [hj] at hnone; simp at hnone
      | some w => exact ⟨w, join_of hj⟩
    obtain ⟨w, hx⟩ := hx
    obtain ⟨w', hy⟩ := hy
    have : w = x' := Eval.det (ofOp_det O) (ofProg_det P) (hgctx ▸ p1.vinv _ _ hx) e2
    subst this
    have : w' = y' := Eval.det (ofOp_det O) (ofProg_det P) (hgctx ▸ p1.vinv _ _ hy) e3
    subst this
    obtain ⟨f', tr', s4, p4, l4⟩ := last g tr1 p1 l1 hx hy
    exact ⟨f', tr', .head _ _ _ hfirst (s1.trans s4), p4, l4⟩

/-- a leaf that is not a shortcut and not a parameter is not an operator or an application -/
theorem leaf_kind {t : Term} {b : Bool} (hc : t.children = []) (hs : (!t.evaluatable && (t.ground || b)) = false)
    : isLiteralOp t.kind = false ∧ t.kind ≠ APPLY ∧ t.kind ≠ APPLY_OPAQUE ∧ t.kind ≠ EVAL_IF_THEN_ELSE := by
  rw [ground_leaf t hc, evaluatable_leaf t hc] at hs
  revert hs
  cases t.kind <;> simp [Term.leafEval, Term.leafNonGround, isLiteralOp]

theorem CompMain.leaf {ctx : Ctx} {t : Term} (hp : ¬ IsParam t) (hc : t.children = []) : CompMain O P ctx t t := by
  intro f fs tr rest hctx hV hT hB hvis hs hp' hn
  obtain ⟨k1, k2, k3, k4⟩ := leaf_kind hc hs
  have hev : Eval (ofOp O) (ofProg P) ctx t t := .leaf _ _ hp hc
  refine CompMain.children (cs' := []) k4 hev (by rw [hc]; exact CompList.nil _) ?_ f fs tr rest hctx hV hT hB hvis hs hp' hn
  intro g fs tr rest hctx hs hV hT hvis _
  refine ⟨_, tr, ?_, .refl _, hT⟩
  unfold stepSecond
  dsimp only
  rw [if_neg (by simp [k2, k3]), if_neg k4, if_neg (by simp [k1])]
  simp [finish, hc, allSome, rebuild]

mutual
/-- every derivation is found by the machine -/
theorem Eval.comp : ∀ {ctx : Ctx} {t v : Term}, Eval (ofOp O) (ofProg P) ctx t v → Comp O P ctx t v
  | _, _, _, .bound ctx t v hp hf => .of_main (.bound ctx t v hp hf) fun _ _ _ _ _ _ _ _ _ _ hn _ => absurd hp hn
  | _, _, _, .free ctx t hp hf => .of_main (.free ctx t hp hf) fun _ _ _ _ _ _ _ _ _ _ hn _ => absurd hp hn
  | _, _, _, .leaf ctx t hp hc => .of_main (.leaf ctx t hp hc) (CompMain.leaf hp hc)
  | _, _, _, .ite ctx c x y b v h1 h2 =>
    .of_main (.ite ctx c x y b v h1 h2) (CompMain.ite (Eval.comp h1) (Eval.comp h2) (.ite ctx c x y b v h1 h2) h2)
  | _, _, _, .iteStuck ctx c x y c' x' y' h1 hnb h2 h3 =>
    .of_main (.iteStuck ctx c x y c' x' y' h1 hnb h2 h3)
      (CompMain.iteStuck (Eval.comp h1) hnb (Eval.comp h2) (Eval.comp h3) h2 h3 (.iteStuck ctx c x y c' x' y' h1 hnb h2 h3))
  | _, _, _, .iteBad ctx cs h1 h2 => by
    refine .of_main (.iteBad ctx cs h1 h2) ?_
    intro f fs tr rest hctx hV hT hB hvis hs hp hn
    refine ⟨_, tr, .one ?_, Post.set hV hT _ rest _ (.iteBad _ cs h1 h2) hB, lookup_set _ _ _ _⟩
    rw [stepMach_cur hvis]; unfold stepCur
    rw [if_neg (by simp [hs]), if_neg hp]
    simp only [hn, kind_node, if_true, children_node]
    split
    · simp at h2
    · rfl
  | _, _, _, .op ctx k cs cs' v hlit hk hcs hL ho => by
    have hev : Eval (ofOp O) (ofProg P) ctx (.node k cs) v := .op ctx k cs cs' v hlit hk hcs hL ho
    refine .of_main hev (CompMain.children hk hev (EvalList.comp hL) ?_)
    intro g fs tr rest hctx hs hV hT hvis ha
    refine ⟨_, tr, ?_, .refl _, hT⟩
    unfold stepSecond
    dsimp only
    rw [if_neg (by rintro (h | h) <;> simp only [kind_node] at h <;> subst h <;> simp [isLiteralOp] at hlit), if_neg (by exact hk),
      if_pos (by exact hlit)]
    simp only [looks, children_node] at ha ⊢
    have ho' : O k cs' = .ok (some v) := ho
    simp only [ha, kind_node, ho', finish]
  | _, _, _, .opStuck ctx k cs cs' hlit hk hcs hL ho => by
    have hev : Eval (ofOp O) (ofProg P) ctx (.node k cs) (.node k cs') := .opStuck ctx k cs cs' hlit hk hcs hL ho
    refine .of_main hev (CompMain.children hk hev (EvalList.comp hL) ?_)
    intro g fs tr rest hctx hs hV hT hvis ha
    refine ⟨_, tr, ?_, .refl _, hT⟩
    unfold stepSecond
    dsimp only
    rw [if_neg (by rintro (h | h) <;> simp only [kind_node] at h <;> subst h <;> simp [isLiteralOp] at hlit), if_neg (by exact hk),
      if_pos (by exact hlit)]
    simp only [looks, children_node] at ha ⊢
    have ho' : O k cs' = .ok none := ho
    simp only [ha, kind_node, ho', finish, rebuild_eq]
  | _, _, _, .progStuck ctx k cs p ps hk hL hp hP => by
    have hev : Eval (ofOp O) (ofProg P) ctx (.node k cs) (.node k (p :: ps)) := .progStuck ctx k cs p ps hk hL hp hP
    refine .of_main hev (CompMain.children (by rcases hk with rfl | rfl <;> simp [Term.kind]) hev (EvalList.comp hL) ?_)
    intro g fs tr rest hctx hs hV hT hvis ha
    refine second_prog hk hp (.inl ⟨hP, rfl⟩) ?_ g fs tr rest hctx hT hvis ha
    intro body ctx' h1
    have := ofProg_det P _ _ _ hP h1
    simp at this
  | _, _, _, .progConst ctx k cs p ps body ctx' hk hL hp hP hg => by
    have hev : Eval (ofOp O) (ofProg P) ctx (.node k cs) body := .progConst ctx k cs p ps body ctx' hk hL hp hP hg
    refine .of_main hev (CompMain.children (by rcases hk with rfl | rfl <;> simp [Term.kind]) hev (EvalList.comp hL) ?_)
    intro g fs tr rest hctx hs hV hT hvis ha
    refine second_prog hk hp (.inr ⟨body, ctx', hP, .inl ⟨hg, rfl⟩⟩) ?_ g fs tr rest hctx hT hvis ha
    intro body2 ctx2 h1 h2 h3
    have := ofProg_det P _ _ _ hP h1
    simp only [Option.some.injEq, Prod.mk.injEq] at this
    obtain ⟨rfl, rfl⟩ := this
    rcases hg with hg | hg
    · rw [hg] at h2; simp at h2
    · exact absurd hg h3
  | _, _, _, .progRun ctx k cs p ps body ctx' v hk hL hp hP hg hne hb => by
    have hev : Eval (ofOp O) (ofProg P) ctx (.node k cs) v := .progRun ctx k cs p ps body ctx' v hk hL hp hP hg hne hb
    have ihb := Eval.comp hb
    refine .of_main hev (CompMain.children (by rcases hk with rfl | rfl <;> simp [Term.kind]) hev (EvalList.comp hL) ?_)
    intro g fs tr rest hctx hs hV hT hvis ha
    refine second_prog hk hp (.inr ⟨body, ctx', hP, .inr ⟨hg, hne, hb⟩⟩) ?_ g fs tr rest hctx hT hvis ha
    intro body2 ctx2 h1 h2 h3
    have := ofProg_det P _ _ _ hP h1
    simp only [Option.some.injEq, Prod.mk.injEq] at this
    obtain ⟨rfl, rfl⟩ := this
    exact ihb
  | _, _, _, .app ctx k cs p ps hk hL hp => by
    have hev : Eval (ofOp O) (ofProg P) ctx (.node k cs) (.node k (p :: ps)) := .app ctx k cs p ps hk hL hp
    refine .of_main hev (CompMain.children (by rcases hk with rfl | rfl <;> simp [Term.kind]) hev (EvalList.comp hL) ?_)
    intro g fs tr rest hctx hs hV hT hvis ha
    have hp' : ¬ (p.kind = PROGRAM_CONST ∧ p.children = []) := hp
    refine ⟨_, tr, ?_, .refl _, hT⟩
    rw [stepSecond_app (cs := cs) hk ha, if_neg hp']
    exact finish_all ha
  | _, _, _, .other ctx k cs cs' hlit h1 h2 hcs hL => by
    have hev : Eval (ofOp O) (ofProg P) ctx (.node k cs) (.node k cs') := .other ctx k cs cs' hlit h1 h2 hcs hL
    have hk : k ≠ EVAL_IF_THEN_ELSE := by rintro rfl; simp [isLiteralOp] at hlit
    refine .of_main hev (CompMain.children hk hev (EvalList.comp hL) ?_)
    intro g fs tr rest hctx hs hV hT hvis ha
    refine ⟨_, tr, ?_, .refl _, hT⟩
    unfold stepSecond
    dsimp only
    rw [if_neg (by simp [Term.kind, h1, h2]), if_neg (by exact hk), if_neg (by simp [Term.kind, hlit])]
    exact finish_all ha
theorem EvalList.comp : ∀ {ctx : Ctx} {cs vs : List Term}, EvalList (ofOp O) (ofProg P) ctx cs vs → CompList O P ctx cs vs
  | _, _, _, .nil ctx => CompList.nil ctx
  | _, _, _, .cons _ _ _ _ _ h1 h2 => CompList.cons (Eval.comp h1) (EvalList.comp h2)
end

/-- the machine computes exactly the big-step relation -/
theorem runMach_complete {t : Term} {ctx : Ctx} {v : Term} (h : Eval (ofOp O) (ofProg P) ctx t v) :
    ∃ n, runMach O P n (initMach t ctx) = .ok v := by
  obtain ⟨f', tr', s, p, l⟩ := Eval.comp h ⟨t, ctx, [], [t], none⟩ [] [] [] rfl (by intro x w hx; simp at hx)
    (by intro x w hx; simp at hx) (by intro x hx; simp at hx) rfl
  refine s.run ?_
  have hi : f'.init = t := p.init
  simp only [stepMach, p.visit, hi, l]

end
end Ethos.Props
