import Verif.Lemmas.SafetyOps
import Verif.Lemmas.Agree
/-
The evaluation machine reads the value of a child only after it has been computed.
-/
namespace Ethos.Props
open Ethos Kind Spec Term

/-- the value of a term has been computed -/
def Has (f : Frame) (x : Term) : Prop := ∃ v, f.visited.lookup x = some (some v)

/-- the children whose values are used when a term is met again -/
def needs (t : Term) : List Term := if t.kind = EVAL_IF_THEN_ELSE then t.children.take 1 else t.children

theorem needs_sub {t c : Term} (h : c ∈ needs t) : c ∈ t.children := by
  unfold needs at h
  split at h
  · exact List.mem_of_mem_take h
  · exact h

/-- what the stack of a frame looks like: a term met once waits below what it still needs, which is smaller -/
structure FrameOk (f : Frame) : Prop where
  ctx : CtxGood Shaped f.ctx
  visit : ∀ x ∈ f.visit, Shaped x
  vals : ∀ x v, f.visited.lookup x = some (some v) → Shaped v
  wait : ∀ x, f.visited.lookup x = some none → ∃ pre post, f.visit = pre ++ x :: post ∧ (∀ y ∈ pre, size y < size x) ∧
    ∀ c ∈ needs x, Has f c ∨ c ∈ pre
  init : Has f f.init ∨ f.init ∈ f.visit

structure MachOk (m : Mach) : Prop where
  frames : ∀ f ∈ m.stack, FrameOk f
  busy : m.stack ≠ []
  below : ∀ f ∈ m.stack.tail, f.visit ≠ []
  trie : ∀ k r, m.trie.lookup k = some r → ShapedOpt r

theorem visited_set {f : Frame} {cur v x : Term} {rest : List Term} {r : Option Term} (h : (f.set cur rest v).visited.lookup x = some r) :
    x = cur ∧ r = some v ∨ x ≠ cur ∧ f.visited.lookup x = some r := by
  simp only [Frame.set, List.lookup] at h
  split at h
  · rename_i he
    have : x = cur := by simpa using he
    cases h
    exact .inl ⟨this, rfl⟩
  · rename_i he
    exact .inr ⟨by simpa using he, h⟩

theorem Has.set {f : Frame} {cur v x : Term} {rest : List Term} (h : Has f x) : Has (f.set cur rest v) x := by
  obtain ⟨w, hw⟩ := h
  unfold Has
  simp only [Frame.set, List.lookup]
  split
  · exact ⟨v, rfl⟩
  · exact ⟨w, hw⟩

theorem has_set {f : Frame} {cur v : Term} {rest : List Term} : Has (f.set cur rest v) cur := ⟨v, by simp [Frame.set]⟩

theorem pre_cons {x cur : Term} {pre post rest : List Term} (h : cur :: rest = pre ++ x :: post) :
    pre = [] ∧ x = cur ∧ rest = post ∨ ∃ pre', pre = cur :: pre' ∧ rest = pre' ++ x :: post := by
  cases pre with
  | nil => simp only [List.nil_append, List.cons.injEq] at h; exact .inl ⟨rfl, h.1.symm, h.2⟩
  | cons a pre => simp only [List.cons_append, List.cons.injEq] at h; exact .inr ⟨pre, by rw [h.1], h.2⟩

/-- the top term has its value stored and is removed -/
theorem FrameOk.set {f : Frame} (hf : FrameOk f) {cur v : Term} {rest : List Term} (hv : f.visit = cur :: rest) (hs : Shaped v) : FrameOk (f.set cur rest v) := by
  refine ⟨hf.ctx, ?_, ?_, ?_, ?_⟩
  · intro x hx; exact hf.visit x (by rw [hv]; simp only [Frame.set] at hx; simp [hx])
  · intro x w h
    rcases visited_set h with ⟨_, h⟩ | ⟨_, h⟩
    · cases h; exact hs
    · exact hf.vals x w h
  · intro x h
    rcases visited_set h with ⟨_, h⟩ | ⟨hne, h⟩
    · cases h
    · obtain ⟨pre, post, he, hlt, hn⟩ := hf.wait x h
      rw [hv] at he
      rcases pre_cons he with ⟨_, h, _⟩ | ⟨pre', rfl, h⟩
      · exact absurd h hne
      · refine ⟨pre', post, h, fun y hy => hlt y (by simp [hy]), fun c hc => ?_⟩
        rcases hn c hc with h | h
        · exact .inl h.set
        · rcases List.mem_cons.1 h with rfl | h
          · exact .inl has_set
          · exact .inr h
  · rcases hf.init with h | h
    · exact .inl h.set
    · rw [hv] at h
      rcases List.mem_cons.1 h with h | h
      · have : Has (f.set cur rest v) cur := has_set
        exact .inl (show Has (f.set cur rest v) f.init by rw [h]; exact this)
      · exact .inr h

/-- the top term already has a value and is removed -/
theorem FrameOk.pop {f : Frame} (hf : FrameOk f) {cur : Term} {rest : List Term} (hv : f.visit = cur :: rest) (hh : Has f cur) : FrameOk { f with visit := rest } := by
  refine ⟨hf.ctx, ?_, hf.vals, ?_, ?_⟩
  · intro x hx; exact hf.visit x (by rw [hv]; simp only at hx; simp [hx])
  · intro x h
    obtain ⟨pre, post, he, hlt, hn⟩ := hf.wait x h
    rw [hv] at he
    rcases pre_cons he with ⟨_, h', _⟩ | ⟨pre', rfl, h'⟩
    · obtain ⟨w, hw⟩ := hh
      rw [← h'] at hw
      rw [show f.visited.lookup x = some none from h] at hw
      cases hw
    · refine ⟨pre', post, h', fun y hy => hlt y (by simp [hy]), fun c hc => ?_⟩
      rcases hn c hc with h | h
      · exact .inl h
      · rcases List.mem_cons.1 h with rfl | h
        · exact .inl hh
        · exact .inr h
  · rcases hf.init with h | h
    · exact .inl h
    · rw [hv] at h
      rcases List.mem_cons.1 h with h | h
      · exact .inl (by rw [h]; exact hh)
      · exact .inr h

/-- a term that waits and is at the top has all it needs -/
theorem FrameOk.ready {f : Frame} (hf : FrameOk f) {cur : Term} {rest : List Term} (hv : f.visit = cur :: rest) (hl : f.visited.lookup cur = some none) :
    ∀ c ∈ needs cur, Has f c := by
  obtain ⟨pre, post, he, hlt, hn⟩ := hf.wait cur hl
  rw [hv] at he
  rcases pre_cons he with ⟨rfl, _, _⟩ | ⟨pre', rfl, _⟩
  · intro c hc
    rcases hn c hc with h | h
    · exact h
    · cases h
  · exact absurd (hlt cur (by simp)) (by omega)

/-- smaller terms are put above the top term, which waits -/
theorem FrameOk.push {f : Frame} (hf : FrameOk f) {cur : Term} {rest up : List Term} (hv : f.visit = cur :: rest) (hl : f.visited.lookup cur = some none)
    (hup : ∀ y ∈ up, y ∈ cur.children) : FrameOk { f with visit := up ++ cur :: rest } := by
  have hcur := hf.visit cur (by rw [hv]; simp)
  have hr := hf.ready hv hl
  refine ⟨hf.ctx, ?_, hf.vals, ?_, ?_⟩
  · intro x hx
    rcases List.mem_append.1 hx with h | h
    · exact hcur.parts x (hup x h)
    · exact hf.visit x (by rw [hv]; exact h)
  · intro x h
    by_cases hx : x = cur
    · subst hx
      exact ⟨up, rest, rfl, fun y hy => size_child_lt (hup y hy), fun c hc => .inl (hr c hc)⟩
    · obtain ⟨pre, post, he, hlt, hn⟩ := hf.wait x h
      rw [hv] at he
      rcases pre_cons he with ⟨_, h', _⟩ | ⟨pre', rfl, h'⟩
      · exact absurd h' hx
      · refine ⟨up ++ cur :: pre', post, by simp [h'], ?_, fun c hc => ?_⟩
        · have hc := hlt cur (by simp)
          intro y hy
          rcases List.mem_append.1 hy with hy | hy
          · have := size_child_lt (hup y hy); omega
          · exact hlt y hy
        · rcases hn c hc with h | h
          · exact .inl h
          · exact .inr (List.mem_append_right _ h)
  · rcases hf.init with h | h
    · exact .inl h
    · exact .inr (by rw [hv] at h; exact List.mem_append_right _ h)

/-- a term is met for the first time -/
theorem FrameOk.first {f : Frame} (hf : FrameOk f) {cur : Term} {rest up : List Term} (hv : f.visit = cur :: rest) (hl : f.visited.lookup cur = none)
    (hup : ∀ y ∈ up, y ∈ cur.children) (hn : ∀ c ∈ needs cur, c ∈ up) :
    FrameOk { f with visited := (cur, none) :: f.visited, visit := up ++ cur :: rest } := by
  have hcur := hf.visit cur (by rw [hv]; simp)
  have hh : ∀ {x : Term} {e : Option Term}, List.lookup x ((cur, none) :: f.visited) = some e → x = cur ∧ e = none ∨ x ≠ cur ∧ f.visited.lookup x = some e := by
    intro x e h
    simp only [List.lookup] at h
    split at h
    · rename_i he
      have : x = cur := by simpa using he
      cases h
      exact .inl ⟨this, rfl⟩
    · rename_i he
      exact .inr ⟨by simpa using he, h⟩
  have hkeep : ∀ {x : Term}, Has f x → Has { f with visited := (cur, none) :: f.visited, visit := up ++ cur :: rest } x := by
    rintro x ⟨v, h⟩
    refine ⟨v, ?_⟩
    have : x ≠ cur := by rintro rfl; rw [hl] at h; cases h
    simp only [List.lookup]
    split
    · rename_i he; exact absurd (by simpa using he) this
    · exact h
  refine ⟨hf.ctx, ?_, ?_, ?_, ?_⟩
  · intro x hx
    rcases List.mem_append.1 hx with h | h
    · exact hcur.parts x (hup x h)
    · exact hf.visit x (by rw [hv]; exact h)
  · intro x v h
    rcases hh h with ⟨_, h⟩ | ⟨_, h⟩
    · cases h
    · exact hf.vals x v h
  · intro x h
    rcases hh h with ⟨rfl, _⟩ | ⟨hne, h⟩
    · exact ⟨up, rest, rfl, fun y hy => size_child_lt (hup y hy), fun c hc => .inr (hn c hc)⟩
    · obtain ⟨pre, post, he, hlt, hn⟩ := hf.wait x h
      rw [hv] at he
      rcases pre_cons he with ⟨_, h', _⟩ | ⟨pre', rfl, h'⟩
      · exact absurd h' hne
      · refine ⟨up ++ cur :: pre', post, by simp [h'], ?_, fun c hc => ?_⟩
        · have hc := hlt cur (by simp)
          intro y hy
          rcases List.mem_append.1 hy with hy | hy
          · have := size_child_lt (hup y hy); omega
          · exact hlt y hy
        · rcases hn c hc with h | h
          · exact .inl (hkeep h)
          · exact .inr (List.mem_append_right _ h)
  · rcases hf.init with h | h
    · exact .inl (hkeep h)
    · exact .inr (by rw [hv] at h; exact List.mem_append_right _ h)

/-- the next state satisfies the invariant -/
def StepOk : Step → Prop
  | .next m => MachOk m
  | .done t => Shaped t
  | .ub => False
  | .fuel => True

theorem allSome_has {f : Frame} : ∀ {l : List Term}, (∀ c ∈ l, Has f c) → ∃ cs, allSome (l.map fun c => (f.visited.lookup c).join) = some cs
  | [], _ => ⟨[], rfl⟩
  | c :: l, h => by
    obtain ⟨v, hv⟩ := h c (by simp)
    obtain ⟨cs, hcs⟩ := allSome_has (l := l) fun c hc => h c (by simp [hc])
    exact ⟨v :: cs, by simp [allSome, hv, hcs]⟩

theorem allSome_shaped {f : Frame} (hf : FrameOk f) : ∀ {l cs : List Term}, allSome (l.map fun c => (f.visited.lookup c).join) = some cs → ∀ c ∈ cs, Shaped c
  | [], cs, h => by cases h; simp
  | c :: l, cs, h => by
    simp only [List.map_cons] at h
    cases hc : f.visited.lookup c with
    | none => rw [hc] at h; simp [allSome] at h
    | some x =>
      cases x with
      | none => rw [hc] at h; simp [allSome] at h
      | some v =>
        rw [hc] at h
        simp only [Option.join_some, allSome, Option.map_eq_some_iff] at h
        obtain ⟨r, hr, rfl⟩ := h
        simp only [List.mem_cons, forall_eq_or_imp]
        exact ⟨hf.vals c v hc, allSome_shaped hf hr⟩

theorem rebuild_shaped {cur : Term} {cs : List Term} (hcur : Shaped cur) (hcs : ∀ c ∈ cs, Shaped c) (hl : cs.length = cur.children.length) : Shaped (rebuild cur cs) := by
  unfold rebuild
  split
  · exact hcur
  · rename_i hne
    have hnil : cur.children = [] → False := by
      intro h
      rw [h] at hl hne
      exact hne (List.eq_nil_of_length_eq_zero hl)
    cases cur with
    | sym k i => exact absurd rfl hnil
    | lit l => exact absurd rfl hnil
    | node k ds =>
      refine .node _ _ ?_ hcs
      rw [hl]
      exact hcur.formed (by simp)

section
variable {O : Kind → List Term → Out (Option Term)} {P : List Term → Out (Option (Term × Ctx))}
  {f : Frame} {fs : List Frame} {tr : List (List Term × Option Term)} {cur : Term} {rest : List Term}

theorem mach_next {f' : Frame} {tr' : List (List Term × Option Term)} (hm : MachOk ⟨f :: fs, tr⟩) (hf : FrameOk f') (htr : ∀ k r, tr'.lookup k = some r → ShapedOpt r) :
    StepOk (.next ⟨f' :: fs, tr'⟩) :=
  ⟨fun g hg => by rcases List.mem_cons.1 hg with rfl | hg; exact hf; exact hm.frames g (by simp [hg]), by simp, hm.below, htr⟩

theorem finish_safe (hm : MachOk ⟨f :: fs, tr⟩) {tr' : List (List Term × Option Term)} (htr : ∀ k r, tr'.lookup k = some r → ShapedOpt r)
    (hv : f.visit = cur :: rest) {r : Option Term} (hr : ShapedOpt r) (hc : r = none → ∀ c ∈ cur.children, Has f c) :
    StepOk (finish f fs tr' cur rest (cur.children.map fun c => (f.visited.lookup c).join) r) := by
  have hf := hm.frames f (by simp)
  unfold finish
  cases r with
  | some v => exact mach_next hm (hf.set hv (hr v rfl)) htr
  | none =>
    obtain ⟨cs, hcs⟩ := allSome_has (hc rfl)
    simp only [hcs]
    refine mach_next hm (hf.set hv (rebuild_shaped (hf.visit cur (by simp [hv])) (allSome_shaped hf hcs) ?_)) htr
    rw [allSome_length hcs]; simp

theorem trie_cons (htr : ∀ k r, tr.lookup k = some r → ShapedOpt r) {k : List Term} {r : Option Term} (hr : ShapedOpt r) :
    ∀ k' r', List.lookup k' ((k, r) :: tr) = some r' → ShapedOpt r' := by
  intro k' r' h
  simp only [List.lookup] at h
  split at h
  · cases h; exact hr
  · exact htr k' r' h

theorem stepProg_safe (hP : ∀ cs, cs ≠ [] → (∀ c ∈ cs, Shaped c) → Out.Safe CallOk (P cs)) (hm : MachOk ⟨f :: fs, tr⟩) (hv : f.visit = cur :: rest)
    (hc : ∀ c ∈ cur.children, Has f c) (hne : cur.children ≠ []) :
    StepOk (stepProg P f fs tr cur rest (cur.children.map fun c => (f.visited.lookup c).join)) := by
  have hf := hm.frames f (by simp)
  obtain ⟨cs, hcs⟩ := allSome_has hc
  have hsh := allSome_shaped hf hcs
  have hcne : cs ≠ [] := by
    rintro rfl
    have := allSome_length hcs
    simp at this
    exact hne (List.eq_nil_of_length_eq_zero this.symm)
  have h := hP cs hcne hsh
  unfold stepProg
  simp only [hcs]
  split
  · rename_i r hr
    exact finish_safe hm hm.trie hv (hm.trie _ _ hr) fun _ => hc
  · split
    · exact finish_safe hm (trie_cons hm.trie (by intro v e; cases e)) hv (by intro v e; cases e) fun _ => hc
    · rename_i body nctx hcall
      obtain ⟨h1, h2⟩ := h.ok hcall body nctx rfl
      have hb : ShapedOpt (some body) := by intro v e; cases e; exact h1
      split
      · exact finish_safe hm (trie_cons hm.trie hb) hv hb (by simp)
      · refine ⟨?_, by simp, ?_, hm.trie⟩
        · intro g hg
          rcases List.mem_cons.1 hg with rfl | hg
          · exact ⟨h2, by simpa using h1, by simp, by simp, .inr (by simp)⟩
          · exact hm.frames g hg
        · intro g hg
          rcases List.mem_cons.1 hg with rfl | hg
          · rw [hv]; simp
          · exact hm.below g hg
    · rename_i hcall; exact absurd hcall h.ne
    · trivial

theorem needs_eq {t : Term} (h : t.kind ≠ EVAL_IF_THEN_ELSE) : needs t = t.children := by simp [needs, h]

theorem stepSecond_safe (hO : ∀ k args, isLiteralOp k = true → args.length = opArity k → (∀ a ∈ args, Shaped a) → Out.Safe ShapedOpt (O k args))
    (hP : ∀ cs, cs ≠ [] → (∀ c ∈ cs, Shaped c) → Out.Safe CallOk (P cs)) (hm : MachOk ⟨f :: fs, tr⟩) (hv : f.visit = cur :: rest)
    (hl : f.visited.lookup cur = some none) : StepOk (stepSecond O P f fs tr cur rest) := by
  have hf := hm.frames f (by simp)
  have hcur := hf.visit cur (by simp [hv])
  have hr := hf.ready hv hl
  have hform : ∀ {k : Kind}, cur.kind = k → isLiteralOp k = true ∨ k = APPLY ∨ k = APPLY_OPAQUE → Formed k cur.children.length := by
    intro k hk ho
    subst hk
    refine hcur.formed ?_
    rintro l rfl
    cases l <;> simp [Term.kind, Lit.kind, isLiteralOp] at ho
  unfold stepSecond
  simp only
  split
  · rename_i hk
    have hn : needs cur = cur.children := needs_eq (by rcases hk with h | h <;> simp [h])
    rw [hn] at hr
    have hlen := (hform rfl (.inr hk)).app (by rcases hk with h | h <;> simp [h])
    have hne : cur.children ≠ [] := by intro h; simp [h] at hlen
    split
    · split
      · rename_i heq _
        exact stepProg_safe hP hm hv hr hne
      · exact finish_safe hm hm.trie hv (by intro v e; cases e) fun _ => hr
    · rename_i hno
      cases hcs : cur.children with
      | nil => exact absurd hcs hne
      | cons c cs =>
        obtain ⟨v, hv⟩ := hr c (by simp [hcs])
        exact absurd (by simp [hcs, hv]) (hno v (cs.map fun c => (f.visited.lookup c).join))
  · split
    · rename_i hk
      have hlen := (hform hk (.inl rfl)).op rfl
      obtain ⟨c, t1, t2, hcs⟩ := length3 hlen
      have hnc : Has f c := hr c (by simp [needs, hk, hcs])
      obtain ⟨cv, hcv⟩ := hnc
      simp only [hcs, List.map_cons, List.map_nil, hcv, Option.join_some]
      have hcch : [some cv, (f.visited.lookup t1).join, (f.visited.lookup t2).join] = cur.children.map fun c => (f.visited.lookup c).join := by
        simp [hcs, hcv]
      rw [hcch]
      have has : ∀ {t : Term}, (f.visited.lookup t).join.isNone = false → Has f t := by
        intro t h
        cases e : f.visited.lookup t with
        | none => simp [e] at h
        | some x =>
          cases x with
          | none => simp [e] at h
          | some v => exact ⟨v, e⟩
      have hsv : ∀ {t e : Term}, (f.visited.lookup t).join = some e → Shaped e := by
        intro t e h
        rw [Option.join_eq_some_iff] at h
        exact hf.vals t e h
      split
      · rename_i b
        split
        · refine mach_next (f' := { f with visit := (if b = true then t1 else t2) :: cur :: rest }) hm ?_ hm.trie
          refine hf.push (up := [if b then t1 else t2]) hv hl ?_
          intro y hy
          simp only [List.mem_singleton] at hy
          subst hy
          cases b <;> simp [hcs]
        · rename_i e he
          refine finish_safe hm hm.trie hv ?_ (by simp)
          intro v e'; cases e'
          cases b
          · exact hsv he
          · exact hsv he
      · split
        · refine mach_next (f' := { f with visit := _ }) hm ?_ hm.trie
          refine hf.push (up := (if (f.visited.lookup t2).join.isNone = true then [t2] else []) ++ (if (f.visited.lookup t1).join.isNone = true then [t1] else [])) hv hl ?_
          intro y hy
          rcases List.mem_append.1 hy with hy | hy
          · split at hy
            · simp only [List.mem_singleton] at hy; subst hy; simp [hcs]
            · cases hy
          · split at hy
            · simp only [List.mem_singleton] at hy; subst hy; simp [hcs]
            · cases hy
        · rename_i hno
          simp only [Bool.or_eq_true, not_or, Bool.not_eq_true] at hno
          refine finish_safe hm hm.trie hv (by intro v e; cases e) fun _ => ?_
          rw [hcs]
          simp only [List.mem_cons, List.not_mem_nil, or_false, forall_eq_or_imp, forall_eq]
          exact ⟨⟨cv, hcv⟩, has hno.1, has hno.2⟩
    · rename_i hk
      rw [needs_eq hk] at hr
      split
      · rename_i hop
        obtain ⟨cs, hcs⟩ := allSome_has hr
        have hlen := (hform rfl (.inl hop)).op hop
        have h := hO cur.kind cs hop (by rw [allSome_length hcs]; simpa using hlen) (allSome_shaped hf hcs)
        simp only [hcs]
        split
        · rename_i r hcall
          exact finish_safe hm hm.trie hv (h.ok hcall) fun _ => hr
        · rename_i hcall; exact absurd hcall h.ne
        · trivial
      · exact finish_safe hm hm.trie hv (by intro v e; cases e) fun _ => hr

theorem stepMach_safe (hO : ∀ k args, isLiteralOp k = true → args.length = opArity k → (∀ a ∈ args, Shaped a) → Out.Safe ShapedOpt (O k args))
    (hP : ∀ cs, cs ≠ [] → (∀ c ∈ cs, Shaped c) → Out.Safe CallOk (P cs)) {m : Mach} (hm : MachOk m) : StepOk (stepMach O P m) := by
  obtain ⟨stack, tr⟩ := m
  cases stack with
  | nil => exact absurd rfl hm.busy
  | cons f fs =>
    have hf := hm.frames f (by simp)
    unfold stepMach
    simp only
    split
    · rename_i cur rest hv
      have hcur := hf.visit cur (by simp [hv])
      unfold stepCur
      split
      · exact mach_next hm (hf.set hv hcur) hm.trie
      · split
        · split
          · rename_i v hfind
            exact mach_next hm (hf.set hv (hf.ctx _ _ hfind)) hm.trie
          · exact mach_next hm (hf.set hv hcur) hm.trie
        · split
          · rename_i hl
            split
            · rename_i hk
              split
              · rename_i c t1 t2 hcs
                exact mach_next (f' := { f with visited := (cur, none) :: f.visited, visit := c :: cur :: rest }) hm
                  (hf.first (up := [c]) hv hl (by simp [hcs]) (by simp [needs, hk, hcs])) hm.trie
              · exact mach_next hm (hf.set hv hcur) hm.trie
            · rename_i hk
              exact mach_next hm (hf.first (up := cur.children.reverse) hv hl (by simp) (by simp [needs_eq hk])) hm.trie
          · rename_i v hl
            exact mach_next hm (hf.pop hv ⟨v, hl⟩) hm.trie
          · rename_i hl
            exact stepSecond_safe hO hP hm hv hl
    · rename_i hv
      have hi : Has f f.init := by
        rcases hf.init with h | h
        · exact h
        · rw [hv] at h; cases h
      obtain ⟨v, hiv⟩ := hi
      have hs := hf.vals _ _ hiv
      simp only [hiv]
      cases fs with
      | nil => exact hs
      | cons g gs =>
        have hg := hm.frames g (by simp)
        simp only
        split
        · rename_i hgv
          exact absurd hgv (hm.below g (by simp))
        · rename_i c r hgv
          refine ⟨?_, by simp, fun h hh => hm.below h (by simp at hh ⊢; exact .inr hh), ?_⟩
          · intro h hh
            rcases List.mem_cons.1 hh with rfl | hh
            · exact hg.set hgv hs
            · exact hm.frames h (by simp [hh])
          · simp only
            split
            · exact trie_cons hm.trie (by intro w e; cases e; exact hs)
            · exact hm.trie

theorem runMach_safe (hO : ∀ k args, isLiteralOp k = true → args.length = opArity k → (∀ a ∈ args, Shaped a) → Out.Safe ShapedOpt (O k args))
    (hP : ∀ cs, cs ≠ [] → (∀ c ∈ cs, Shaped c) → Out.Safe CallOk (P cs)) : ∀ (n : Nat) {m : Mach}, MachOk m → Out.Safe Shaped (runMach O P n m)
  | 0, _, _ => trivial
  | n+1, m, hm => by
    have h := stepMach_safe hO hP hm
    unfold runMach
    split
    · rename_i m' e; rw [e] at h; exact runMach_safe hO hP n h
    · rename_i t e; rw [e] at h; exact h
    · rename_i e; rw [e] at h; exact h
    · trivial
end

theorem initMach_ok {t : Term} {ctx : Ctx} (ht : Shaped t) (hc : CtxGood Shaped ctx) : MachOk (initMach t ctx) := by
  refine ⟨?_, by simp [initMach], by simp [initMach], by simp [initMach]⟩
  intro f hf
  simp only [initMach, List.mem_singleton] at hf
  subst hf
  exact ⟨hc, by simpa using ht, by simp, by simp, .inr (by simp)⟩

theorem ops_parts (env : Env) (n : Nat) (t r : Term) (h : (ops env n).getType t = .ok (some r)) : typesOf (ops env n) t.children ≠ .ok none := by
  cases n with
  | zero => simp [ops] at h
  | succ n =>
    cases t with
    | sym k i => simp [Term.children, typesOf]
    | lit l => simp [Term.children, typesOf]
    | node k cs =>
      simp only [ops, typeStep] at h
      obtain ⟨ts, h1, h2⟩ := bind_ok h
      cases ts with
      | none => cases h2
      | some ts =>
        rw [(typesOf_mono (ops_succ env n) _).ok h1]
        simp

theorem ops_safe {env : Env} (hE : ShapedEnv env) : ∀ n, OpsSafe (ops env n)
  | 0 => ⟨fun _ _ _ _ => trivial, fun _ _ _ _ _ => trivial, fun _ _ => trivial, ops_parts env 0⟩
  | n+1 =>
    have ih := ops_safe hE n
    ⟨fun _ _ ht hc => runMach_safe ih.evalOp (fun _ h1 h2 => evalProgram_safe hE h1 h2) n (initMach_ok ht hc),
      fun _ _ _ hl hc => opStep_safe hE ih hl hc, fun _ ht => typeStep_safe hE ih ht, ops_parts env (n+1)⟩

end Ethos.Props
