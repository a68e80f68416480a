import Verif.Lemmas.Match
/-
C27, C28: pattern matching.
-/
namespace Ethos.Props
open Kind Spec Term

/-- **C27**.  If matching pattern `a` against `b` from context `ctx` succeeds with context `ctx'`, then
`ctx'` extends `ctx`, instantiating the parameters of `a` by `ctx'` gives exactly `b`, every parameter of
`a` is bound, and nothing but parameters of `a` was added. -/
theorem C27_sound {a b : Term} {ctx ctx' : Ctx} (h : matchTerm a b ctx = some (true, ctx')) :
    subst (ctxSub ctx') a = b ∧
    (∀ p, Sub p a → IsParam p → ∃ v, ctx'.find p = some v) ∧
    (∀ p v, ctx.find p = some v → ctx'.find p = some v) ∧
    (∀ p v, ctx'.find p = some v → ctx.find p = some v ∨ (IsParam p ∧ Sub p a)) := by
  obtain ⟨vis, hi⟩ := matchTerm_sound h
  obtain ⟨h1, h2⟩ := hi.finish a b (by simp)
  exact ⟨h1, h2, hi.ext, by simpa using hi.only⟩

/-- **C28**.  Matching always terminates (within as many iterations as the pattern has nodes). -/
theorem C28_terminates (a b : Term) (ctx : Ctx) : ∃ r ctx', matchTerm a b ctx = some (r, ctx') := by
  obtain ⟨⟨r, c⟩, h⟩ := matchTerm_total a b ctx
  exact ⟨r, c, h⟩

/-- **C28**.  If `b` is an instance of `a` under a substitution that agrees with the bindings already
made, matching succeeds and finds that substitution on the parameters of `a`.  (Patterns contain no
unknown type `ANY`, which can not be written.) -/
theorem C28_complete (σ : Term → Term) (a b : Term) (ctx : Ctx) (hany : ∀ s, Sub s a → ¬ IsAny s)
    (hinst : subst σ a = b) (hctx : ∀ p v, Sub p a → IsParam p → ctx.find p = some v → v = σ p) :
    ∃ ctx', matchTerm a b ctx = some (true, ctx') ∧
      ∀ p, Sub p a → IsParam p → ctx'.find p = some (σ p) := by
  obtain ⟨ctx', h⟩ := matchLoop_complete σ (size a) [(a, b)] [] ctx (by simp [psizes, sizes])
    (by intro q hq; simp at hq; subst hq; exact ⟨hinst, hany⟩)
    (by intro q hq; simp at hq; subst hq; exact hctx)
  refine ⟨ctx', h, ?_⟩
  obtain ⟨h1, h2, _⟩ := C27_sound (a := a) (b := b) (ctx := ctx) (ctx' := ctx') h
  intro p hp hpp
  obtain ⟨v, hv⟩ := h2 p hp hpp
  have := subst_inj _ _ a (h1.trans hinst.symm) p hp hpp
  simp only [ctxSub, hv, Option.getD_some] at this
  rw [hv, this]

/-- **C28**.  Matching fails exactly when no substitution extending the context gives the term. -/
theorem C28_fails_iff (a b : Term) (ctx : Ctx) (hany : ∀ s, Sub s a → ¬ IsAny s) :
    (∃ ctx', matchTerm a b ctx = some (false, ctx')) ↔
      ¬ ∃ σ, subst σ a = b ∧ ∀ p v, Sub p a → IsParam p → ctx.find p = some v → v = σ p := by
  constructor
  · rintro ⟨ctx', h⟩ ⟨σ, h1, h2⟩
    obtain ⟨c, h3, _⟩ := C28_complete σ a b ctx hany h1 h2
    rw [h3] at h
    cases h
  · intro hno
    obtain ⟨r, ctx', h⟩ := C28_terminates a b ctx
    cases r
    · exact ⟨ctx', h⟩
    · exfalso
      apply hno
      obtain ⟨h1, _, h3, _⟩ := C27_sound h
      refine ⟨ctxSub ctx', h1, ?_⟩
      intro p v _ _ hv
      simp [ctxSub, h3 p v hv]

/-- **C27** for the argument list of a program case: all patterns are instantiated by one context. -/
theorem C27_args : ∀ {ps ts : List Term} {ctx ctx' : Ctx}, ps.length = ts.length →
    matchArgs ps ts ctx = some ctx' →
    ps.map (subst (ctxSub ctx')) = ts ∧
    (∀ q ∈ ps, ∀ p, Sub p q → IsParam p → ∃ v, ctx'.find p = some v) ∧
    (∀ p v, ctx.find p = some v → ctx'.find p = some v) ∧
    (∀ p v, ctx'.find p = some v → ctx.find p = some v ∨ (IsParam p ∧ ∃ q ∈ ps, Sub p q))
  | [], ts, ctx, ctx', hl, h => by
    simp [matchArgs] at h
    subst h
    cases ts with
    | nil => simp
    | cons t ts => simp at hl
  | q :: ps, [], ctx, ctx', hl, h => by simp at hl
  | q :: ps, t :: ts, ctx, ctx', hl, h => by
    rw [matchArgs] at h
    split at h
    · rename_i c hm
      obtain ⟨h1, h2, h3, h4⟩ := C27_sound hm
      obtain ⟨g1, g2, g3, g4⟩ := C27_args (by simpa using hl) h
      refine ⟨?_, ?_, ?_, ?_⟩
      · rw [List.map_cons, g1]
        congr 1
        rw [← h1]
        apply subst_congr
        intro p hp hpp
        obtain ⟨v, hv⟩ := h2 p hp hpp
        simp [ctxSub, hv, g3 p v hv]
      · intro x hx p hp hpp
        rcases List.mem_cons.mp hx with rfl | hx
        · obtain ⟨v, hv⟩ := h2 p hp hpp
          exact ⟨v, g3 p v hv⟩
        · exact g2 x hx p hp hpp
      · intro p v hv; exact g3 p v (h3 p v hv)
      · intro p v hv
        rcases g4 p v hv with hv | ⟨hp, x, hx, hs⟩
        · rcases h4 p v hv with hv | ⟨hp, hs⟩
          · exact Or.inl hv
          · exact Or.inr ⟨hp, q, by simp, hs⟩
        · exact Or.inr ⟨hp, x, by simp [hx], hs⟩
    · cases h

/-- **C28** for the argument list of a program case. -/
theorem C28_args (σ : Term → Term) : ∀ (ps : List Term) (ctx : Ctx),
    (∀ q ∈ ps, ∀ s, Sub s q → ¬ IsAny s) →
    (∀ q ∈ ps, ∀ p v, Sub p q → IsParam p → ctx.find p = some v → v = σ p) →
    ∃ ctx', matchArgs ps (ps.map (subst σ)) ctx = some ctx' ∧
      ∀ q ∈ ps, ∀ p, Sub p q → IsParam p → ctx'.find p = some (σ p)
  | [], ctx, _, _ => ⟨ctx, by simp [matchArgs]⟩
  | q :: ps, ctx, hany, hctx => by
    obtain ⟨c, h1, h2⟩ := C28_complete σ q (subst σ q) ctx (hany q (by simp)) rfl (hctx q (by simp))
    obtain ⟨h3, h4, h5, h6⟩ := C27_sound h1
    obtain ⟨c', g1, g2⟩ := C28_args σ ps c (fun x hx => hany x (by simp [hx])) (by
      intro x hx p v hp hpp hv
      rcases h6 p v hv with hv | ⟨_, hpq⟩
      · exact hctx x (by simp [hx]) p v hp hpp hv
      · have := h2 p hpq hpp
        rw [this] at hv
        cases hv; rfl)
    refine ⟨c', ?_, ?_⟩
    · rw [List.map_cons, matchArgs, h1]; exact g1
    · intro x hx p hp hpp
      rcases List.mem_cons.mp hx with rfl | hx
      · obtain ⟨_, _, g3, _⟩ := C27_args (by simp) g1
        exact g3 p _ (h2 p hp hpp)
      · exact g2 x hx p hp hpp

/-- a non-linear pattern `(f x (g x y))` against `(f a (g a b))`, and against `(f a (g b b))` -/
def exPat : Term := .node APPLY [.node APPLY [.sym CONST 0, .sym PARAM 1],
  .node APPLY [.node APPLY [.sym CONST 2, .sym PARAM 1], .sym PARAM 3]]
def exInst (a b c : Term) : Term := .node APPLY [.node APPLY [.sym CONST 0, a],
  .node APPLY [.node APPLY [.sym CONST 2, b], c]]

example : matchTerm exPat (exInst (.sym CONST 10) (.sym CONST 10) (.sym CONST 11)) []
    = some (true, [(.sym PARAM 1, .sym CONST 10), (.sym PARAM 3, .sym CONST 11)]) := rfl
example : ∃ c, matchTerm exPat (exInst (.sym CONST 10) (.sym CONST 11) (.sym CONST 11)) []
    = some (false, c) := ⟨_, rfl⟩
example : subst (fun p => if p = .sym PARAM 1 then .sym CONST 10 else .sym CONST 11) exPat
    = exInst (.sym CONST 10) (.sym CONST 10) (.sym CONST 11) := rfl

end Ethos.Props
