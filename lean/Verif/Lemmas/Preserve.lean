import Verif.Lemmas.ListOps
import Verif.Lemmas.EvalSound
import Verif.Model.Desugar
/-
Properties of terms that evaluation, typing and term construction preserve.
-/
namespace Ethos.Props
open Ethos Kind Spec

attribute [simp] isSymbol

/-- Terms with `P` in which the parameter `self` may be used besides.  If `ar`, every `eo::ite` around it has three arguments. -/
inductive Templ (ar : Prop) (self : Term) (P : Term → Prop) : Term → Prop
  | self : Templ ar self P self
  | of (t) : P t → Templ ar self P t
  | node (k cs) : isSymbol k = false → (ar → k = EVAL_IF_THEN_ELSE → cs.length = 3) → (k = LAMBDA → ∀ vs, cs.head? = some vs → vs.kind = TUPLE) →
      (∀ c ∈ cs, Templ ar self P c) → Templ ar self P (.node k cs)

/-- what a type rule for literals may be: a term with `P`, up to `eo::self` -/
def SelfRule (env : Env) (P : Term → Prop) (t : Term) : Prop :=
  (∃ i, env.self = .sym PARAM i) ∧ (∀ cs, (∀ c ∈ cs, P c) → P (.node PROOF cs)) ∧ Templ True env.self P t

/-- `P` holds of a term exactly if it holds of its children, except perhaps for proofs, and the variables of a macro form a
tuple; everything the environment provides has `P` -/
structure Good (env : Env) (P : Term → Prop) : Prop where
  lit : ∀ l, P (.lit l)
  node : ∀ k cs, (k ≠ PROOF ∧ k ≠ LAMBDA ∧ isSymbol k = false) → (P (.node k cs) ↔ ∀ c ∈ cs, P c)
  lambda : ∀ cs, P (.node LAMBDA cs) ↔ (∀ c ∈ cs, P c) ∧ ∀ vs, cs.head? = some vs → vs.kind = TUPLE
  leaf : ∀ k cs, P (.node k cs) → isSymbol k = false
  proof : (∀ cs, P (.node PROOF cs) ↔ ∀ c ∈ cs, P c) ∨
    (∀ cs, P (.node PROOF cs) → (Term.node PROOF cs).ground = true ∧ (Term.node PROOF cs).evaluatable = false)
  symType : ∀ t ty, P t → env.symType t = some ty → P ty
  cons : ∀ t ai c, P t → env.appInfo t = some ai → ai.cons = some c → P c
  program : ∀ p prog, P p → env.program p = some prog → ∀ c ∈ prog.children, (∀ d ∈ c.children, P d) ∧
    ∀ pat r, c.children = pat :: r → ∀ e ∈ pat.children, P e
  kind : ∀ t ai, env.appInfo t = some ai → ai.kind ≠ PROOF ∧ ai.kind ≠ LAMBDA ∧ isSymbol ai.kind = false
  overloads : ∀ x t, t ∈ env.overloads x → P t
  litRule : ∀ k t, env.litRule k = some t → P t ∨ SelfRule env P t
  boundVar : ∀ x ty, ty.ground = true → P ty → P (env.boundVar x ty)
  tmp : ∀ t, t.ground = true → P t → P (env.tmp t)
  listCons : P env.listCons
  listNil : P env.listNil
  listType : P env.listType
  proofType : P env.proofType

variable {env : Env} {P : Term → Prop}

namespace Good

theorem node0 (G : Good env P) (k : Kind) (hk : k ≠ PROOF ∧ k ≠ LAMBDA ∧ isSymbol k = false) : P (.node k []) := (G.node k [] hk).2 (by simp)
theorem node1 (G : Good env P) {k : Kind} (hk : k ≠ PROOF ∧ k ≠ LAMBDA ∧ isSymbol k = false) {a : Term} (ha : P a) : P (.node k [a]) := (G.node _ _ hk).2 (by simpa)
theorem node2 (G : Good env P) {k : Kind} (hk : k ≠ PROOF ∧ k ≠ LAMBDA ∧ isSymbol k = false) {a c : Term} (ha : P a) (hc : P c) : P (.node k [a, c]) :=
  (G.node _ _ hk).2 (by simp [ha, hc])
theorem node3 (G : Good env P) {k : Kind} (hk : k ≠ PROOF ∧ k ≠ LAMBDA ∧ isSymbol k = false) {a c d : Term} (ha : P a) (hc : P c) (hd : P d) : P (.node k [a, c, d]) :=
  (G.node _ _ hk).2 (by simp [ha, hc, hd])
theorem children (G : Good env P) {t : Term} (hk : t.kind ≠ PROOF) (h : P t) : ∀ c ∈ t.children, P c := by
  cases t with
  | sym k i => simp [Term.children]
  | lit l => simp [Term.children]
  | node k cs =>
    by_cases hl : k = LAMBDA
    · subst hl; exact ((G.lambda cs).1 h).1
    · exact (G.node k cs ⟨hk, hl, G.leaf _ _ h⟩).1 h
theorem app2 (G : Good env P) {f a c : Term} (hf : P f) (ha : P a) (hc : P c) : P (app2 f a c) :=
  G.node2 (by simp) (G.node2 (by simp) hf ha) hc
theorem bool (G : Good env P) (x : Bool) : P (mkBool x) := G.lit _

end Good

/-- a context whose values have `P` -/
def CtxGood (P : Term → Prop) (ctx : Ctx) : Prop := ∀ x v, ctx.find x = some v → P v

theorem CtxGood.nil : CtxGood P [] := by intro x v h; simp [Ctx.find] at h

theorem CtxGood.cons {ctx : Ctx} {p t : Term} (h : CtxGood P ctx) (ht : P t) : CtxGood P ((p, t) :: ctx) := by
  intro x v hx
  simp only [Ctx.find, List.lookup_cons] at hx
  split at hx
  · cases hx; exact ht
  · exact h x v hx

theorem CtxGood.zip {ps ts : List Term} (h : ∀ t ∈ ts, P t) : CtxGood P (ps.zip ts).reverse := by
  have : ∀ l : List (Term × Term), (∀ q ∈ l, P q.2) → CtxGood P l := by
    intro l hl
    induction l with
    | nil => exact .nil
    | cons q l ih => exact CtxGood.cons (ih fun q hq => hl q (by simp [hq])) (hl q (by simp))
  refine this _ fun q hq => h _ (List.of_mem_zip (List.mem_reverse.1 hq) |>.2)

/-- matching terms with `P` against patterns with `P` binds terms with `P` -/
theorem matchLoop_good (G : Good env P) : ∀ (n : Nat) (st vis : List (Term × Term)) (ctx ctx' : Ctx) (r : Bool),
    (∀ q ∈ st, P q.1 ∧ P q.2) → CtxGood P ctx → matchLoop n st vis ctx = some (r, ctx') → CtxGood P ctx' := by
  intro n
  induction n with
  | zero =>
    intro st vis ctx ctx' r hs hc h
    cases st with
    | nil => simp only [matchLoop, Option.some.injEq, Prod.mk.injEq] at h; rw [← h.2]; exact hc
    | cons q st => simp [matchLoop] at h
  | succ n ih =>
    intro st vis ctx ctx' r hs hc h
    cases st with
    | nil => simp only [matchLoop, Option.some.injEq, Prod.mk.injEq] at h; rw [← h.2]; exact hc
    | cons q st =>
      obtain ⟨a, t⟩ := q
      have hst : ∀ q ∈ st, P q.1 ∧ P q.2 := fun q hq => hs q (by simp [hq])
      obtain ⟨ha, ht⟩ := hs (a, t) (by simp)
      simp only [matchLoop] at h
      split at h
      · split at h
        · exact ih _ _ _ _ _ hst hc h
        · simp only [Option.some.injEq, Prod.mk.injEq] at h; rw [← h.2]; exact hc
      · rename_i hg
        split at h
        · exact ih _ _ _ _ _ hst hc h
        · split at h
          · split at h
            · split at h
              · exact ih _ _ _ _ _ hst (hc.cons ht) h
              · split at h
                · simp only [Option.some.injEq, Prod.mk.injEq] at h; rw [← h.2]; exact hc
                · exact ih _ _ _ _ _ hst hc h
            · simp only [Option.some.injEq, Prod.mk.injEq] at h; rw [← h.2]; exact hc
          · split at h
            · simp only [Option.some.injEq, Prod.mk.injEq] at h; rw [← h.2]; exact hc
            · rename_i hne hk
              refine ih _ _ _ _ _ ?_ hc h
              intro q hq
              rcases List.mem_append.1 hq with hq | hq
              · have hm := List.of_mem_zip (List.mem_reverse.1 hq)
                have hk' : a.kind = t.kind := by
                  by_cases hkk : a.kind = t.kind
                  · exact hkk
                  · exact absurd (.inr hkk) hk
                by_cases hp : a.kind = PROOF
                · rcases G.proof with hpr | hpr
                  · cases a with
                    | sym k i => simp [Term.children] at hne
                    | lit l => simp [Term.children] at hne
                    | node k cs =>
                      cases t with
                      | sym k i => simp [Term.children] at hm
                      | lit l => simp [Term.children] at hm
                      | node k' cs' =>
                        simp only [Term.kind] at hp hk'
                        subst hp; subst hk'
                        exact ⟨(hpr _).1 ha _ hm.1, (hpr _).1 ht _ hm.2⟩
                  · cases a with
                    | sym k i => simp [Term.children] at hne
                    | lit l => simp [Term.children] at hne
                    | node k cs =>
                      simp only [Term.kind] at hp
                      subst hp
                      exact absurd (hpr _ ha).1 hg
                · exact ⟨G.children hp ha _ hm.1, G.children (hk' ▸ hp) ht _ hm.2⟩
              · exact hst q hq

theorem matchArgs_good (G : Good env P) : ∀ (ps ts : List Term) (ctx ctx' : Ctx), (∀ p ∈ ps, P p) → (∀ t ∈ ts, P t) →
    CtxGood P ctx → matchArgs ps ts ctx = some ctx' → CtxGood P ctx'
  | p :: ps, t :: ts, ctx, ctx', hp, ht, hc, h => by
    simp only [matchArgs] at h
    split at h
    · rename_i ctx1 h1
      exact matchArgs_good G ps ts ctx1 ctx' (fun q hq => hp q (by simp [hq])) (fun q hq => ht q (by simp [hq]))
        (matchLoop_good G _ _ _ _ _ _ (by simpa using ⟨hp p (by simp), ht t (by simp)⟩) hc h1) h
    · cases h
  | [], ts, ctx, ctx', _, _, hc, h => by
    simp only [matchArgs, Option.some.injEq] at h; rw [← h]; exact hc
  | p :: ps, [], ctx, ctx', _, _, hc, h => by
    simp only [matchArgs, Option.some.injEq] at h; rw [← h]; exact hc

theorem runCases_good (G : Good env P) {children : List Term} (hch : ∀ c ∈ children, P c) : ∀ (cs : List Term) (body : Term) (ctx : Ctx),
    (∀ c ∈ cs, (∀ d ∈ c.children, P d) ∧ ∀ pat r, c.children = pat :: r → ∀ e ∈ pat.children, P e) →
    runCases children cs = .ok (some (body, ctx)) → P body ∧ CtxGood P ctx
  | [], body, ctx, _, h => by simp [runCases] at h
  | c :: cs, body, ctx, hcs, h => by
    simp only [runCases] at h
    split at h
    · rename_i pat bd rest hc
      obtain ⟨h0, h0'⟩ := hcs c (by simp)
      rw [hc] at h0
      split at h
      · simp at h
      · split at h
        · rename_i ctx1 h1
          simp only [Out.ok.injEq, Option.some.injEq, Prod.mk.injEq] at h
          obtain ⟨rfl, rfl⟩ := h
          exact ⟨h0 bd (by simp), matchArgs_good G _ _ _ _ (fun q hq => h0' pat _ hc q (List.mem_of_mem_tail hq))
            (fun q hq => hch q (List.mem_of_mem_tail hq)) .nil h1⟩
        · exact runCases_good G hch cs body ctx (fun c hc => hcs c (by simp [hc])) h
    · cases h

theorem evalProgram_good (G : Good env P) {children : List Term} (hch : ∀ c ∈ children, P c) {body : Term} {ctx : Ctx}
    (h : evalProgram env children = .ok (some (body, ctx))) : P body ∧ CtxGood P ctx := by
  unfold evalProgram at h
  split at h
  · simp at h
  · split at h
    · simp at h
    · split at h
      · simp at h
      · split at h
        · simp at h
        · rename_i hd tl _ _ _ prog hp
          exact runCases_good G hch _ _ _ (G.program _ prog (hch _ (by simp)) hp) h

/-! ### Evaluation -/

section
variable {O : Kind → List Term → Option Term → Prop} {Q : List Term → Option (Term × Ctx) → Prop}

theorem ground_children {k : Kind} {cs : List Term} (h : (Term.node k cs).ground = true) : ∀ c ∈ cs, c.ground = true := by
  intro c hc
  rw [ground_iff] at h ⊢
  exact fun s hs => h s (.child _ _ _ _ hc hs)

theorem notEval_child {k : Kind} {cs : List Term} (h : (Term.node k cs).evaluatable = false) : ∀ c ∈ cs, c.evaluatable = false := by
  intro c hc
  cases hx : c.evaluatable with
  | false => rfl
  | true =>
    obtain ⟨s, hs, hs'⟩ := (evaluatable_iff c).1 hx
    rw [(evaluatable_iff _).2 ⟨s, .child _ _ _ _ hc hs, hs'⟩] at h
    cases h

theorem EvalList.self (ctx : Ctx) : ∀ cs : List Term, (∀ c ∈ cs, c.ground = true ∧ c.evaluatable = false) → EvalList O Q ctx cs cs
  | [], _ => .nil _
  | c :: cs, h => .cons _ _ _ _ _ (Eval.self _ _ (h c (by simp)).2 (.inl (h c (by simp)).1)) (EvalList.self ctx cs fun d hd => h d (by simp [hd]))

theorem eval_tuple {ctx : Ctx} {c v : Term} (hk : c.kind = TUPLE) (h : Eval O Q ctx c v) : v.kind = TUPLE := by
  cases h with
  | bound _ _ _ h => rw [h.1] at hk; cases hk
  | free _ _ h => exact hk
  | leaf => exact hk
  | ite => cases hk
  | iteStuck => cases hk
  | iteBad => exact hk
  | op _ k _ _ _ h => simp only [Term.kind] at hk; subst hk; simp [isLiteralOp] at h
  | opStuck => exact hk
  | progStuck => exact hk
  | progConst _ _ _ _ _ _ _ h => simp only [Term.kind] at hk; subst hk; simp at h
  | progRun _ _ _ _ _ _ _ _ h => simp only [Term.kind] at hk; subst hk; simp at h
  | app => exact hk
  | other => exact hk

mutual
theorem Eval.good (G : Good env P) (hO : ∀ k a r r', O k a r → O k a r' → r = r') (hQ : ∀ a r r', Q a r → Q a r' → r = r')
    (hOP : ∀ k a v, (∀ c ∈ a, P c) → O k a (some v) → P v)
    (hQP : ∀ a body ctx, (∀ c ∈ a, P c) → Q a (some (body, ctx)) → P body ∧ CtxGood P ctx) :
    ∀ {ctx t v}, Eval O Q ctx t v → CtxGood P ctx → P t → P v
  | _, _, _, .bound _ _ _ h1 h2, hc, _ => hc _ _ h2
  | _, _, _, .free _ _ _ _, _, ht => ht
  | _, _, _, .leaf _ _ _ _, _, ht => ht
  | _, _, _, .ite _ c x y b v h1 h2, hc, ht => by
    have ht' := (G.node _ _ (by simp)).1 ht
    refine Eval.good G hO hQ hOP hQP h2 hc ?_
    cases b <;> simp [ht']
  | _, _, _, .iteStuck _ c x y c' x' y' h1 _ h2 h3, hc, ht => by
    have ht' := (G.node _ _ (by simp)).1 ht
    exact G.node3 (by simp) (Eval.good G hO hQ hOP hQP h1 hc (ht' _ (by simp))) (Eval.good G hO hQ hOP hQP h2 hc (ht' _ (by simp)))
      (Eval.good G hO hQ hOP hQP h3 hc (ht' _ (by simp)))
  | _, _, _, .iteBad _ _ _ _, _, ht => ht
  | _, _, _, .op _ k cs cs' v hk _ _ h1 h2, hc, ht => by
    have hkp : k ≠ PROOF ∧ k ≠ LAMBDA ∧ isSymbol k = false := ⟨by rintro rfl; simp [isLiteralOp] at hk, by rintro rfl; simp [isLiteralOp] at hk, by revert hk; cases k <;> simp [isLiteralOp]⟩
    exact hOP _ _ _ (EvalList.good G hO hQ hOP hQP h1 hc ((G.node _ _ hkp).1 ht)) h2
  | _, _, _, .opStuck _ k cs cs' hk _ _ h1 _, hc, ht => by
    have hkp : k ≠ PROOF ∧ k ≠ LAMBDA ∧ isSymbol k = false := ⟨by rintro rfl; simp [isLiteralOp] at hk, by rintro rfl; simp [isLiteralOp] at hk, by revert hk; cases k <;> simp [isLiteralOp]⟩
    exact (G.node _ _ hkp).2 (EvalList.good G hO hQ hOP hQP h1 hc ((G.node _ _ hkp).1 ht))
  | _, _, _, .progStuck _ k cs p ps hk h1 _ _, hc, ht => by
    have hkp : k ≠ PROOF ∧ k ≠ LAMBDA ∧ isSymbol k = false := by rcases hk with rfl | rfl <;> simp
    exact (G.node _ _ hkp).2 (EvalList.good G hO hQ hOP hQP h1 hc ((G.node _ _ hkp).1 ht))
  | _, _, _, .progConst _ k cs p ps body ctx' hk h1 _ h2 _, hc, ht => by
    have hkp : k ≠ PROOF ∧ k ≠ LAMBDA ∧ isSymbol k = false := by rcases hk with rfl | rfl <;> simp
    exact (hQP _ _ _ (EvalList.good G hO hQ hOP hQP h1 hc ((G.node _ _ hkp).1 ht)) h2).1
  | _, _, _, .progRun _ k cs p ps body ctx' v hk h1 _ h2 _ _ h3, hc, ht => by
    have hkp : k ≠ PROOF ∧ k ≠ LAMBDA ∧ isSymbol k = false := by rcases hk with rfl | rfl <;> simp
    obtain ⟨a, c⟩ := hQP _ _ _ (EvalList.good G hO hQ hOP hQP h1 hc ((G.node _ _ hkp).1 ht)) h2
    exact Eval.good G hO hQ hOP hQP h3 c a
  | _, _, _, .app _ k cs p ps hk h1 _, hc, ht => by
    have hkp : k ≠ PROOF ∧ k ≠ LAMBDA ∧ isSymbol k = false := by rcases hk with rfl | rfl <;> simp
    exact (G.node _ _ hkp).2 (EvalList.good G hO hQ hOP hQP h1 hc ((G.node _ _ hkp).1 ht))
  | _, _, _, .other ctx k cs cs' _ _ _ _ h1, hc, ht => by
    by_cases hkp : k = PROOF
    · subst hkp
      rcases G.proof with hpr | hpr
      · exact (hpr _).2 (EvalList.good G hO hQ hOP hQP h1 hc ((hpr _).1 ht))
      · obtain ⟨hg, he⟩ := hpr _ ht
        have := EvalList.det hO hQ h1 (EvalList.self ctx cs fun c hc => ⟨ground_children hg c hc, notEval_child he c hc⟩)
        rw [this]; exact ht
    · by_cases hl : k = LAMBDA
      · subst hl
        obtain ⟨ha, hs⟩ := (G.lambda _).1 ht
        refine (G.lambda _).2 ⟨EvalList.good G hO hQ hOP hQP h1 hc ha, ?_⟩
        cases h1 with
        | nil => simp
        | cons _ c cs v vs h2 _ =>
          intro w hw
          cases hw
          exact eval_tuple (hs c rfl) h2
      · have hpl : k ≠ PROOF ∧ k ≠ LAMBDA ∧ isSymbol k = false := ⟨hkp, hl, G.leaf _ _ ht⟩
        exact (G.node _ _ hpl).2 (EvalList.good G hO hQ hOP hQP h1 hc ((G.node _ _ hpl).1 ht))
theorem EvalList.good (G : Good env P) (hO : ∀ k a r r', O k a r → O k a r' → r = r') (hQ : ∀ a r r', Q a r → Q a r' → r = r')
    (hOP : ∀ k a v, (∀ c ∈ a, P c) → O k a (some v) → P v)
    (hQP : ∀ a body ctx, (∀ c ∈ a, P c) → Q a (some (body, ctx)) → P body ∧ CtxGood P ctx) :
    ∀ {ctx ts vs}, EvalList O Q ctx ts vs → CtxGood P ctx → (∀ t ∈ ts, P t) → ∀ v ∈ vs, P v
  | _, _, _, .nil _, _, _ => by simp
  | _, _, _, .cons _ c cs v vs h1 h2, hc, ht => by
    have a := Eval.good G hO hQ hOP hQP h1 hc (ht c (by simp))
    have b := EvalList.good G hO hQ hOP hQP h2 hc fun t h => ht t (by simp [h])
    intro w hw
    rcases List.mem_cons.1 hw with rfl | hw
    · exact a
    · exact b w hw
end
end

/-! ### Terms with `eo::self` -/

theorem Templ.node_inv {ar : Prop} {self : Term} (hs : ∃ i, self = .sym PARAM i) {k : Kind} {cs : List Term} (h : Templ ar self P (.node k cs)) :
    P (.node k cs) ∨ (isSymbol k = false ∧ (ar → k = EVAL_IF_THEN_ELSE → cs.length = 3) ∧
      (k = LAMBDA → ∀ vs, cs.head? = some vs → vs.kind = TUPLE) ∧ ∀ c ∈ cs, Templ ar self P c) := by
  generalize ht : Term.node k cs = t at h
  cases h with
  | self => obtain ⟨i, rfl⟩ := hs; cases ht
  | of _ h => exact .inl h
  | node k' cs' h1 h2 h3 h4 => cases ht; exact .inr ⟨h1, h2, h3, h4⟩

theorem Good.rebuild (G : Good env P) (hp : ∀ cs, (∀ c ∈ cs, P c) → P (.node PROOF cs)) {k : Kind} {cs : List Term} (h1 : isSymbol k = false)
    (h2 : k = LAMBDA → ∀ vs, cs.head? = some vs → vs.kind = TUPLE) (h3 : ∀ c ∈ cs, P c) : P (.node k cs) := by
  by_cases hk : k = PROOF
  · subst hk; exact hp _ h3
  · by_cases hl : k = LAMBDA
    · subst hl; exact (G.lambda _).2 ⟨h3, h2 rfl⟩
    · exact (G.node _ _ ⟨hk, hl, h1⟩).2 h3

/-- without parameters there is no `eo::self` -/
theorem Templ.ground (G : Good env P) {ar : Prop} {self t : Term} (hs : ∃ i, self = .sym PARAM i) (hp : ∀ cs, (∀ c ∈ cs, P c) → P (.node PROOF cs))
    (h : Templ ar self P t) (hg : t.ground = true) : P t := by
  induction h with
  | self => obtain ⟨i, rfl⟩ := hs; simp [Term.ground, Term.leafNonGround] at hg
  | of _ h => exact h
  | node k cs h1 _ h3 _ ih => exact G.rebuild hp h1 h3 fun c hc => ih c hc (ground_children hg c hc)

section
variable {O : Kind → List Term → Option Term → Prop} {Q : List Term → Option (Term × Ctx) → Prop}
mutual
/-- evaluation replaces `eo::self` everywhere, if no `eo::ite` has a wrong number of arguments -/
theorem Eval.templ (G : Good env P) {self : Term} (hs : ∃ i, self = .sym PARAM i) (hp : ∀ cs, (∀ c ∈ cs, P c) → P (.node PROOF cs))
    (hO : ∀ k a r r', O k a r → O k a r' → r = r') (hQ : ∀ a r r', Q a r → Q a r' → r = r')
    (hOP : ∀ k a v, (∀ c ∈ a, P c) → O k a (some v) → P v)
    (hQP : ∀ a body ctx, (∀ c ∈ a, P c) → Q a (some (body, ctx)) → P body ∧ CtxGood P ctx) :
    ∀ {ctx t v}, Eval O Q ctx t v → CtxGood P ctx → ctx.find self ≠ none → Templ True self P t → P v
  | _, _, _, .bound _ _ _ h1 h2, hc, _, _ => hc _ _ h2
  | _, _, _, .free _ _ h1 h2, _, hf, ht => by
    cases ht with
    | self => exact absurd h2 hf
    | of _ h => exact h
    | node k cs h3 _ _ _ => cases (show k = PARAM from h1.1); cases h3
  | _, _, _, .leaf _ _ h1 h2, _, _, ht => by
    cases ht with
    | self => obtain ⟨i, rfl⟩ := hs; exact absurd ⟨rfl, rfl⟩ h1
    | of _ h => exact h
    | node k cs h3 _ h4 _ =>
      cases (show cs = [] from h2)
      exact G.rebuild hp h3 (by simp) (by simp)
  | _, _, _, .ite ctx c x y b v h1 h2, hc, hf, ht => by
    rcases ht.node_inv hs with h | ⟨_, _, _, h⟩
    · exact Eval.good G hO hQ hOP hQP (.ite ctx c x y b v h1 h2) hc h
    · refine Eval.templ G hs hp hO hQ hOP hQP h2 hc hf ?_
      cases b <;> simp [h]
  | _, _, _, .iteStuck ctx c x y c' x' y' h1 h2 h3 h4, hc, hf, ht => by
    rcases ht.node_inv hs with h | ⟨_, _, _, h⟩
    · exact Eval.good G hO hQ hOP hQP (.iteStuck ctx c x y c' x' y' h1 h2 h3 h4) hc h
    · exact G.node3 (by simp) (Eval.templ G hs hp hO hQ hOP hQP h1 hc hf (h _ (by simp))) (Eval.templ G hs hp hO hQ hOP hQP h3 hc hf (h _ (by simp)))
        (Eval.templ G hs hp hO hQ hOP hQP h4 hc hf (h _ (by simp)))
  | _, _, _, .iteBad _ _ _ h2, _, _, ht => by
    rcases ht.node_inv hs with h | ⟨_, h, _, _⟩
    · exact h
    · exact absurd (h trivial rfl) h2
  | _, _, _, .op ctx k cs cs' v hk h0 h1 h2 h3, hc, hf, ht => by
    rcases ht.node_inv hs with h | ⟨_, _, _, h⟩
    · exact Eval.good G hO hQ hOP hQP (.op ctx k cs cs' v hk h0 h1 h2 h3) hc h
    · exact hOP _ _ _ (EvalList.templ G hs hp hO hQ hOP hQP h2 hc hf h) h3
  | _, _, _, .opStuck ctx k cs cs' hk h0 h1 h2 h3, hc, hf, ht => by
    rcases ht.node_inv hs with h | ⟨h5, _, _, h⟩
    · exact Eval.good G hO hQ hOP hQP (.opStuck ctx k cs cs' hk h0 h1 h2 h3) hc h
    · exact G.rebuild hp h5 (by rintro rfl; simp [isLiteralOp] at hk) (EvalList.templ G hs hp hO hQ hOP hQP h2 hc hf h)
  | _, _, _, .progStuck ctx k cs p ps hk h1 h2 h3, hc, hf, ht => by
    rcases ht.node_inv hs with h | ⟨h5, _, _, h⟩
    · exact Eval.good G hO hQ hOP hQP (.progStuck ctx k cs p ps hk h1 h2 h3) hc h
    · exact G.rebuild hp h5 (by rintro rfl; simp at hk) (EvalList.templ G hs hp hO hQ hOP hQP h1 hc hf h)
  | _, _, _, .progConst ctx k cs p ps body ctx' hk h1 h2 h3 h4, hc, hf, ht => by
    rcases ht.node_inv hs with h | ⟨_, _, _, h⟩
    · exact Eval.good G hO hQ hOP hQP (.progConst ctx k cs p ps body ctx' hk h1 h2 h3 h4) hc h
    · exact (hQP _ _ _ (EvalList.templ G hs hp hO hQ hOP hQP h1 hc hf h) h3).1
  | _, _, _, .progRun ctx k cs p ps body ctx' v hk h1 h2 h3 h4 h5 h6, hc, hf, ht => by
    rcases ht.node_inv hs with h | ⟨_, _, _, h⟩
    · exact Eval.good G hO hQ hOP hQP (.progRun ctx k cs p ps body ctx' v hk h1 h2 h3 h4 h5 h6) hc h
    · obtain ⟨a, c⟩ := hQP _ _ _ (EvalList.templ G hs hp hO hQ hOP hQP h1 hc hf h) h3
      exact Eval.good G hO hQ hOP hQP h6 c a
  | _, _, _, .app ctx k cs p ps hk h1 h2, hc, hf, ht => by
    rcases ht.node_inv hs with h | ⟨h5, _, _, h⟩
    · exact Eval.good G hO hQ hOP hQP (.app ctx k cs p ps hk h1 h2) hc h
    · exact G.rebuild hp h5 (by rintro rfl; simp at hk) (EvalList.templ G hs hp hO hQ hOP hQP h1 hc hf h)
  | _, _, _, .other ctx k cs cs' h0 h1 h2 h3 h4, hc, hf, ht => by
    rcases ht.node_inv hs with h | ⟨h5, _, h6, h⟩
    · exact Eval.good G hO hQ hOP hQP (.other ctx k cs cs' h0 h1 h2 h3 h4) hc h
    · refine G.rebuild hp h5 ?_ (EvalList.templ G hs hp hO hQ hOP hQP h4 hc hf h)
      intro hl
      cases h4 with
      | nil => simp
      | cons _ c cs v vs h7 _ =>
        intro w hw
        cases hw
        exact eval_tuple (h6 hl c rfl) h7
theorem EvalList.templ (G : Good env P) {self : Term} (hs : ∃ i, self = .sym PARAM i) (hp : ∀ cs, (∀ c ∈ cs, P c) → P (.node PROOF cs))
    (hO : ∀ k a r r', O k a r → O k a r' → r = r') (hQ : ∀ a r r', Q a r → Q a r' → r = r')
    (hOP : ∀ k a v, (∀ c ∈ a, P c) → O k a (some v) → P v)
    (hQP : ∀ a body ctx, (∀ c ∈ a, P c) → Q a (some (body, ctx)) → P body ∧ CtxGood P ctx) :
    ∀ {ctx ts vs}, EvalList O Q ctx ts vs → CtxGood P ctx → ctx.find self ≠ none → (∀ t ∈ ts, Templ True self P t) → ∀ v ∈ vs, P v
  | _, _, _, .nil _, _, _, _ => by simp
  | _, _, _, .cons _ c cs v vs h1 h2, hc, hf, ht => by
    have a := Eval.templ G hs hp hO hQ hOP hQP h1 hc hf (ht c (by simp))
    have b := EvalList.templ G hs hp hO hQ hOP hQP h2 hc hf fun t h => ht t (by simp [h])
    intro w hw
    rcases List.mem_cons.1 hw with rfl | hw
    · exact a
    · exact b w hw
end
end

/-- the entry points of the type checker preserve `P` -/
structure OpsGood (P : Term → Prop) (o : Ops) : Prop where
  evaluate : ∀ t ctx v, P t → CtxGood P ctx → o.evaluate t ctx = .ok v → P v
  selfRule : ∀ t ctx v self, (∃ i, self = .sym PARAM i) → (∀ cs, (∀ c ∈ cs, P c) → P (.node PROOF cs)) → Templ True self P t → CtxGood P ctx →
    ctx.find self ≠ none → o.evaluate t ctx = .ok v → P v
  evalOp : ∀ k args v, (∀ a ∈ args, P a) → o.evalOp k args = .ok (some v) → P v
  getType : ∀ t ty, P t → o.getType t = .ok (some ty) → P ty

theorem argO_good_ok {args : List Term} {i : Nat} {t : Term} (h : argO args i = .ok t) : t ∈ args := by
  unfold argO at h
  split at h
  · rename_i u hu
    cases h
    exact List.mem_of_getElem? hu
  · cases h

theorem Out.bind_ok {α β : Type} {x : Out α} {f : α → Out β} {v : β} : x.bind f = .ok v ↔ ∃ a, x = .ok a ∧ f a = .ok v := by
  cases x <;> simp [Out.bind]
theorem Out.map_ok {α β : Type} {x : Out α} {f : α → β} {v : β} : x.map f = .ok v ↔ ∃ a, x = .ok a ∧ f a = v := by
  cases x <;> simp [Out.map]

/-! ### Typing -/

theorem typesOf_good {o : Ops} (ho : OpsGood P o) : ∀ (cs ts : List Term), (∀ c ∈ cs, P c) → typesOf o cs = .ok (some ts) → ∀ t ∈ ts, P t
  | [], ts, _, h => by simp [typesOf] at h; subst h; simp
  | c :: cs, ts, hc, h => by
    simp only [typesOf, Out.bind_ok] at h
    obtain ⟨t, h1, h2⟩ := h
    split at h2
    · simp at h2
    · rename_i t'
      simp only [Out.map_ok] at h2
      obtain ⟨r, h3, h4⟩ := h2
      cases r with
      | none => simp at h4
      | some r =>
        simp only [Option.map_some, Option.some.injEq] at h4
        subst h4
        intro x hx
        rcases List.mem_cons.1 hx with rfl | hx
        · exact ho.getType _ _ (hc c (by simp)) h1
        · exact typesOf_good ho cs r (fun c h => hc c (by simp [h])) h3 x hx

theorem appPairs_good (G : Good env P) {o : Ops} (ho : OpsGood P o) : ∀ (hs cs : List Term) (r : List (Term × Term) × Bool), (∀ c ∈ hs, P c) →
    (∀ c ∈ cs, P c) → appPairs o hs cs = .ok r → ∀ q ∈ r.1, P q.1 ∧ P q.2
  | h :: hs, c :: cs, r, hh, hc, hr => by
    have ih := fun r => appPairs_good G ho hs cs r (fun x hx => hh x (by simp [hx])) (fun x hx => hc x (by simp [hx]))
    simp only [appPairs] at hr
    split at hr
    · rename_i hk
      simp only [Out.bind_ok] at hr
      obtain ⟨q, h1, ct, h2, cte, h3, h4⟩ := hr
      split at h4
      · cases h4
      · split at h4
        · simp only [Out.map_ok] at h4
          obtain ⟨r', h5, rfl⟩ := h4
          intro p hp
          rcases List.mem_cons.1 hp with rfl | hp
          · exact ⟨G.children (by rw [hk]; simp) (hh h (by simp)) _ (argO_good_ok h1), hc c (by simp)⟩
          · exact ih r' h5 p hp
        · cases h4; simp
    · simp only [Out.bind_ok] at hr
      obtain ⟨ct, h2, h4⟩ := hr
      split at h4
      · cases h4
      · simp only [Out.map_ok] at h4
        obtain ⟨r', h5, rfl⟩ := h4
        intro p hp
        rcases List.mem_cons.1 hp with rfl | hp
        · exact ⟨hh h (by simp), ho.getType _ _ (hc c (by simp)) h2⟩
        · exact ih r' h5 p hp
  | [], cs, r, _, _, hr => by simp only [appPairs, Out.ok.injEq] at hr; subst hr; simp
  | h :: hs, [], r, _, _, hr => by simp only [appPairs, Out.ok.injEq] at hr; subst hr; simp

theorem typeApp_good (G : Good env P) {o : Ops} (ho : OpsGood P o) {cs : List Term} {r : Option Term × Ctx} (hc : ∀ c ∈ cs, P c)
    (h : typeApp o cs = .ok r) : (∀ t, r.1 = some t → P t) ∧ CtxGood P r.2 := by
  simp only [typeApp, Out.bind_ok] at h
  obtain ⟨hd, h1, ht, h2, h3⟩ := h
  split at h3
  · cases h3
  · rename_i hdType
    have hht := ho.getType _ _ (hc _ (argO_good_ok h1)) h2
    split at h3
    · cases h3; exact ⟨by simp, .nil⟩
    · rename_i hk
      have hkp : hdType.kind ≠ PROOF := by
        intro hp; rw [hp] at hk; simp at hk
      split at h3
      · cases h3; exact ⟨by simp, .nil⟩
      · simp only [Out.bind_ok] at h3
        obtain ⟨q, h4, h5⟩ := h3
        have hq := appPairs_good G ho _ _ _ (fun c hc => G.children hkp hht c (List.dropLast_subset _ hc))
          (fun c h => hc c (List.mem_of_mem_tail h)) h4
        split at h5
        · cases h5
        · rename_i ctx hm
          cases h5
          exact ⟨by simp, matchLoop_good G _ _ _ _ _ _ hq .nil hm⟩
        · rename_i ctx hm
          have hctx := matchLoop_good G _ _ _ _ _ _ hq .nil hm
          split at h5
          · split at h5
            · cases h5
            · rename_i ret hret
              simp only [Out.map_ok] at h5
              obtain ⟨t, h6, rfl⟩ := h5
              refine ⟨?_, hctx⟩
              intro t' ht'
              cases ht'
              exact ho.evaluate _ _ _ (G.children hkp hht _ (List.mem_of_getLast? hret)) hctx h6
          · cases h5; exact ⟨by simp, hctx⟩

theorem Good.any (G : Good env P) : P tAny := G.node0 _ (by simp)
theorem Good.type (G : Good env P) : P tType := G.node0 _ (by simp)
theorem Good.boolType (G : Good env P) : P tBool := G.node0 _ (by simp)

theorem litType_good (G : Good env P) {o : Ops} (ho : OpsGood P o) {k : Kind} {self : Option Term} (hs : ∀ s, self = some s → P s)
    {t : Term} (h : litType env o k self = .ok (some t)) : P t := by
  have hr : P ((env.litRule k).getD tAny) ∨ SelfRule env P ((env.litRule k).getD tAny) := by
    cases hl : env.litRule k with
    | none => exact .inl G.any
    | some t => exact G.litRule _ _ hl
  have hself : P (self.getD tAny) := by
    cases self with
    | none => exact G.any
    | some s => exact hs s rfl
  simp only [litType] at h
  split at h
  · rename_i hg
    simp only [Out.ok.injEq, Option.some.injEq] at h
    rw [← h]
    rcases hr with hr | ⟨h1, h2, h3⟩
    · exact hr
    · exact h3.ground G h1 h2 hg
  · simp only [Out.map_ok, Option.some.injEq] at h
    obtain ⟨v, h1, rfl⟩ := h
    rcases hr with hr | ⟨h2, h3, h4⟩
    · exact ho.evaluate _ _ _ hr (CtxGood.nil.cons hself) h1
    · exact ho.selfRule _ _ _ _ h2 h3 h4 (CtxGood.nil.cons hself) (by simp [Ctx.find]) h1

theorem argO_some {P : Term → Prop} {args : List Term} {i : Nat} {t : Term} (ha : ∀ a ∈ args, P a) (h : (argO args i).map some = .ok (some t)) : P t := by
  simp only [Out.map_ok, Option.some.injEq] at h
  obtain ⟨a, h1, rfl⟩ := h
  exact ha _ (argO_good_ok h1)

theorem litOpType_good (G : Good env P) {o : Ops} (ho : OpsGood P o) {k : Kind} {cs ts : List Term} (hc : ∀ c ∈ cs, P c) (ht : ∀ t ∈ ts, P t)
    {t : Term} (h : litOpType env o k cs ts = .ok (some t)) : P t := by
  unfold litOpType at h
  split at h
  · simp at h
  · split at h <;> first
      | exact argO_some hc h
      | exact argO_some ht h
      | exact litType_good G ho (by simp) h
      | (simp only [Out.ok.injEq, Option.some.injEq] at h; subst h; first | exact G.type | exact G.boolType | exact G.listType)
      | simp at h

theorem mkFunctionType_good (G : Good env P) {ts : List Term} {r : Term} (ht : ∀ t ∈ ts, P t) (hr : P r) : P (mkFunctionType ts r) := by
  induction ts with
  | nil => exact hr
  | cons t ts ih => exact G.node2 (by simp) (ht t (by simp)) (ih fun t h => ht t (by simp [h]))

theorem typeInternal_good (G : Good env P) {o : Ops} (ho : OpsGood P o) {e : Term} {ts : List Term} (he : P e) (hp : e.kind ≠ PROOF)
    (ht : ∀ t ∈ ts, P t) {t : Term} (h : typeInternal env o e ts = .ok (some t)) : P t := by
  have hch := G.children hp he
  unfold typeInternal at h
  split at h
  · simp only [Out.map_ok] at h
    obtain ⟨r, h1, h2⟩ := h
    exact (typeApp_good G ho hch h1).1 _ h2
  · simp only [Out.map_ok] at h
    obtain ⟨r, h1, h2⟩ := h
    exact (typeApp_good G ho hch h1).1 _ h2
  · simp only [Out.bind_ok] at h
    obtain ⟨vs, h1, us, h2, h3⟩ := h
    split at h3
    · cases h3
    · simp only [Out.map_ok, Option.some.injEq] at h3
      obtain ⟨ret, h4, rfl⟩ := h3
      rename_i hk _ us
      obtain ⟨ha, hs⟩ : (∀ c ∈ e.children, P c) ∧ ∀ vs, e.children.head? = some vs → vs.kind = TUPLE := by
        cases e with
        | sym k i => simp [argO, Term.children] at h1
        | lit l => simp [argO, Term.children] at h1
        | node k cs => cases (show k = LAMBDA from hk); exact (G.lambda _).1 he
      have hv : vs.kind = TUPLE := by
        refine hs vs ?_
        unfold argO at h1
        split at h1
        · rename_i hx; cases h1; rw [List.head?_eq_getElem?]; exact hx
        · cases h1
      exact mkFunctionType_good G (typesOf_good ho _ _ (G.children (by rw [hv]; simp) (ha _ (argO_good_ok h1))) h2) (ht _ (argO_good_ok h4))
  all_goals first
    | (simp only [Out.ok.injEq, Option.some.injEq] at h; subst h; first | exact G.type | exact G.boolType | exact G.any)
    | exact litType_good G ho (by simpa) h
    | exact argO_some ht h
    | (exfalso; rename_i hk; exact hp hk)
    | (simp at h; done)
    | skip
  split at h
  · exact litOpType_good G ho hch ht h
  · simp at h

theorem typeStep_good (G : Good env P) {o : Ops} (ho : OpsGood P o) {e t : Term} (he : P e) (h : typeStep env o e = .ok (some t)) : P t := by
  unfold typeStep at h
  split at h
  · simp only [Out.ok.injEq] at h
    exact G.symType _ _ he h
  · simp only [Out.bind_ok] at h
    obtain ⟨cts, h1, h2⟩ := h
    split at h2
    · simp at h2
    · simp only [Out.map_ok] at h2
      obtain ⟨r, h3, h4⟩ := h2
      split at h4
      · cases h4
      · split at h4
        · cases h4
        · cases h4
          by_cases hp : e.kind = PROOF
          · unfold typeInternal at h3
            rw [hp] at h3
            simp only [Out.bind_ok] at h3
            obtain ⟨ct, h5, h6⟩ := h3
            split at h6
            · simp at h6
            · simp only [Out.ok.injEq, Option.some.injEq] at h6
              rw [← h6]; exact G.proofType
          · exact typeInternal_good G ho he hp (typesOf_good ho _ _ (G.children hp he) h1) h3

theorem consTerm_good (G : Good env P) {o : Ops} (ho : OpsGood P o) {ai : AppInfo} {cs : List Term} (ha : ∀ c, ai.cons = some c → P c)
    (hc : ∀ c ∈ cs, P c) {t : Term} (h : consTerm o ai cs = .ok (some t)) : P t := by
  unfold consTerm at h
  split at h
  · simp at h
  · rename_i ct hct
    split at h
    · simp only [Out.ok.injEq, Option.some.injEq] at h; rw [← h]; exact ha _ hct
    · rename_i hk
      have hk : ct.kind = PARAMETERIZED := by simpa using hk
      split at h
      · cases h
      · simp at h
      · rename_i hd c1 _
        split at h
        · simp at h
        · simp only [Out.bind_ok] at h
          obtain ⟨t0, _, h⟩ := h
          split at h
          · simp at h
          · simp only [Out.bind_ok] at h
            obtain ⟨t1, _, h⟩ := h
            split at h
            · simp at h
            · simp only [Out.bind_ok] at h
              obtain ⟨r, h1, h⟩ := h
              split at h
              · rename_i ps body _ hch
                split at h
                · simp only [Out.map_ok, Option.some.injEq] at h
                  obtain ⟨v, h2, rfl⟩ := h
                  refine ho.evaluate _ _ _ (G.children (by rw [hk]; simp) (ha _ hct) body (by rw [hch]; simp)) ?_ h2
                  refine (typeApp_good G ho ?_ h1).2
                  intro c hc'
                  simp at hc'
                  rcases hc' with rfl | rfl <;> exact hc _ (by simp)
                · simp at h
              · cases h

/-! ### List operators -/

theorem naryLoop_good (G : Good env P) (op : Term) (l : Bool) (t : Term) (h : P t) :
    (∀ c ∈ (naryLoop op l t).1, P c) ∧ P (naryLoop op l t).2 := by
  fun_induction naryLoop op l t with
  | case1 x r1 y r2 _ cs e heq ih =>
    have h1 := (G.node _ _ (by simp)).1 h
    have h2 := (G.node _ _ (by simp)).1 (h1 _ (List.mem_cons_self ..))
    have := ih (h2 x (by simp))
    rw [heq] at this
    exact ⟨by simpa using ⟨h1 y (by simp), this.1⟩, this.2⟩
  | case2 x r1 y r2 hl cs e heq ih =>
    have h1 := (G.node _ _ (by simp)).1 h
    have h2 := (G.node _ _ (by simp)).1 (h1 _ (List.mem_cons_self ..))
    have := ih (h1 y (by simp))
    rw [heq] at this
    exact ⟨by simpa using ⟨h2 x (by simp), this.1⟩, this.2⟩
  | case3 => exact ⟨by simp, h⟩
  | case4 => exact ⟨by simp, h⟩

theorem getNAry_good (G : Good env P) {op nil : Term} {l : Bool} {t : Term} {cs : List Term} (h : P t)
    (hc : getNAryChildren op nil l t = some cs) : ∀ c ∈ cs, P c := by
  have := (naryLoop_good G op l t h).1
  unfold getNAryChildren at hc
  simp only at hc
  split at hc
  · cases hc
  · cases hc; exact this

theorem nthTail_good (G : Good env P) (l : Bool) : ∀ (n : Nat) (t : Term), P t → P (nthTail l n t) := by
  intro n t
  fun_induction nthTail l n t with
  | case1 => exact id
  | case2 n o x r y r2 ih =>
    intro h
    apply ih
    have h1 := (G.node _ _ (by simp)).1 h
    have h2 := (G.node _ _ (by simp)).1 (h1 _ (List.mem_cons_self ..))
    split
    · exact h2 x (by simp)
    · exact h1 y (by simp)
  | case3 => exact id

theorem prepend_good (G : Good env P) {op ret : Term} {l : Bool} {hs : List Term} (ho : P op) (hr : P ret) (hh : ∀ c ∈ hs, P c) :
    P (prependNAry op l ret hs) := by
  unfold prependNAry
  split
  · induction hs generalizing ret with
    | nil => exact hr
    | cons a hs ih => exact ih (G.app2 ho hr (hh a (by simp))) fun c hc => hh c (by simp [hc])
  · induction hs with
    | nil => exact hr
    | cons a hs ih => exact G.app2 ho (hh a (by simp)) (ih fun c hc => hh c (by simp [hc]))

theorem eraseLoop_mem (x : Term) (all : Bool) (hs : List Term) (i : Nat) (res : List Term) (ci cs : Nat) :
    ∀ c ∈ (eraseLoop x all hs i res ci cs).1, c ∈ res ∨ c ∈ hs := by
  fun_induction eraseLoop x all hs i res ci cs with
  | case1 => simp
  | case2 _ _ _ _ _ _ ih => intro c hc; rcases ih c hc with h | h <;> simp [h]
  | case3 => intro c hc; simp [hc]
  | case4 _ _ _ _ _ _ _ ih =>
    intro c hc
    rcases ih c hc with h | h
    · rcases List.mem_append.1 h with h | h
      · simp [h]
      · simp only [List.mem_singleton] at h; simp [h]
    · simp [h]

theorem setOfLoop_mem (hs : List Term) (i : Nat) (seen res : List Term) (ci cs : Nat) :
    ∀ c ∈ (setOfLoop hs i seen res ci cs).1, c ∈ res ∨ c ∈ hs := by
  fun_induction setOfLoop hs i seen res ci cs with
  | case1 => simp
  | case2 _ _ _ _ _ _ _ _ ih => intro c hc; rcases ih c hc with h | h <;> simp [h]
  | case3 _ _ _ _ _ _ _ _ ih =>
    intro c hc
    rcases ih c hc with h | h
    · rcases List.mem_append.1 h with h | h
      · simp [h]
      · simp only [List.mem_singleton] at h; simp [h]
    · simp [h]

theorem diffLoop_mem (d : Bool) (hs : List Term) (i : Nat) (c2 : List (Term × Nat)) (res : List Term) (ci cs : Nat) :
    ∀ c ∈ (diffLoop d hs i c2 res ci cs).1, c ∈ res ∨ c ∈ hs := by
  fun_induction diffLoop d hs i c2 res ci cs with
  | case1 => simp
  | case2 _ _ _ _ _ _ _ _ _ _ ih => intro c hc; rcases ih c hc with h | h <;> simp [h]
  | case3 _ _ _ _ _ _ _ _ _ _ ih =>
    intro c hc
    rcases ih c hc with h | h
    · rcases List.mem_append.1 h with h | h
      · simp [h]
      · simp only [List.mem_singleton] at h; simp [h]
    · simp [h]

theorem Res.bind_val {α β : Type} {x : Res α} {f : α → Res β} {v : β} : x.bind f = .val v ↔ ∃ a, x = .val a ∧ f a = .val v := by
  cases x <;> simp [Res.bind]

theorem argAt_val {args : List Term} {i : Nat} {t : Term} (h : argAt args i = .val t) : t ∈ args := by
  unfold argAt at h
  split at h
  · rename_i u hu
    cases h
    exact List.mem_of_getElem? hu
  · cases h

theorem listErase_good (G : Good env P) {all : Bool} {op nil l x v : Term} {left : Bool} (ho : P op) (hl : P l)
    (h : listErase all op nil left l x = .val v) : P v := by
  unfold listErase at h
  split at h
  · cases h
  · rename_i hs hg
    have hh := getNAry_good G hl hg
    simp only at h
    split at h
    · cases h; exact hl
    · cases h
      refine prepend_good G ho (nthTail_good G _ _ _ hl) ?_
      have : ∀ c ∈ (eraseLoop x all hs 0 [] 0 0).1, P c := by
        intro c hc
        rcases eraseLoop_mem _ _ _ _ _ _ _ c hc with h | h
        · cases h
        · exact hh c h
      intro c hc
      split at hc
      · exact this c (List.mem_of_mem_take hc)
      · exact this c hc

theorem listSetOf_good (G : Good env P) {op nil l v : Term} {left : Bool} (ho : P op) (hl : P l)
    (h : listSetOf op nil left l = .val v) : P v := by
  unfold listSetOf at h
  split at h
  · cases h
  · rename_i hs hg
    have hh := getNAry_good G hl hg
    simp only at h
    split at h
    · cases h; exact hl
    · cases h
      refine prepend_good G ho (nthTail_good G _ _ _ hl) ?_
      intro c hc
      rcases setOfLoop_mem _ _ _ _ _ _ c (List.mem_of_mem_take hc) with h | h
      · cases h
      · exact hh c h

theorem listDiffInter_good (G : Good env P) {d : Bool} {op nil l l2 v : Term} {left : Bool} (ho : P op) (hn : P nil) (hl : P l)
    (h : listDiffInter d op nil left l l2 = .val v) : P v := by
  unfold listDiffInter at h
  split at h
  · cases h
  · rename_i hs hg
    have hh := getNAry_good G hl hg
    split at h
    · cases h
    · split at h
      · cases h
        split
        · exact hn
        · exact hl
      · simp only at h
        split at h
        · cases h; exact hl
        · cases h
          refine prepend_good G ho (nthTail_good G _ _ _ hl) ?_
          intro c hc
          rcases diffLoop_mem _ _ _ _ _ _ _ c (List.mem_of_mem_take hc) with h | h
          · cases h
          · exact hh c h

theorem listMPred_good (G : Good env P) {d : Bool} {op nil l l2 v : Term} {left : Bool}
    (h : listMPred d op nil left l l2 = .val v) : P v := by
  unfold listMPred at h
  split at h
  · cases h
  · split at h
    · cases h
    · split at h
      · cases h; exact G.lit _
      · simp only at h
        split at h
        · cases h; exact G.lit _
        · repeat' split at h
          all_goals cases h; exact G.lit _

theorem evalListOp_good (G : Good env P) {k : Kind} {op nil v : Term} {left : Bool} {args : List Term} (ho : P op) (hn : P nil)
    (ha : ∀ a ∈ args, P a) (h : evalListOp k op nil left args = .val v) : P v := by
  unfold evalListOp at h
  split at h
  · simp only [Res.bind_val] at h
    obtain ⟨r, h1, h⟩ := h
    split at h
    · simp only [Res.bind_val] at h
      obtain ⟨a, h2, h⟩ := h
      cases h
      exact prepend_good G ho (ha _ (argAt_val h1)) (by simpa using ha _ (argAt_val h2))
    · cases h
  · simp only [Res.bind_val] at h
    obtain ⟨r, h1, h⟩ := h
    split at h
    · simp only [Res.bind_val] at h
      obtain ⟨a, h2, h⟩ := h
      split at h
      · cases h
      · rename_i hs hg
        split at h
        · cases h; exact ha _ (argAt_val h2)
        · cases h; exact prepend_good G ho (ha _ (argAt_val h1)) (getNAry_good G (ha _ (argAt_val h2)) hg)
    · cases h
  · simp only [Res.bind_val] at h
    obtain ⟨r, h1, h⟩ := h
    split at h
    · cases h
    · cases h; exact G.lit _
  · simp only [Res.bind_val] at h
    obtain ⟨i, h1, h⟩ := h
    split at h
    · split at h
      · simp only [Res.bind_val] at h
        obtain ⟨l, h2, h⟩ := h
        split at h
        · cases h
        · rename_i hs hg
          split at h
          · rename_i t ht
            cases h
            exact getNAry_good G (ha _ (argAt_val h2)) hg _ (List.mem_of_getElem? ht)
          · cases h
      · cases h
    · cases h
  · simp only [Res.bind_val] at h
    obtain ⟨r, h1, h⟩ := h
    split at h
    · cases h
    · simp only [Res.bind_val] at h
      obtain ⟨x, h2, h⟩ := h
      split at h <;> cases h <;> exact G.lit _
  · simp only [Res.bind_val] at h
    obtain ⟨l, h1, x, h2, h⟩ := h
    exact listErase_good G ho (ha _ (argAt_val h1)) h
  · simp only [Res.bind_val] at h
    obtain ⟨l, h1, x, h2, h⟩ := h
    exact listErase_good G ho (ha _ (argAt_val h1)) h
  · simp only [Res.bind_val] at h
    obtain ⟨l, h1, h⟩ := h
    unfold listRev at h
    split at h
    · cases h
    · rename_i hs hg
      cases h
      exact prepend_good G ho hn fun c hc => getNAry_good G (ha _ (argAt_val h1)) hg c (List.mem_reverse.1 hc)
  · simp only [Res.bind_val] at h
    obtain ⟨l, h1, h⟩ := h
    exact listSetOf_good G ho (ha _ (argAt_val h1)) h
  · simp only [Res.bind_val] at h
    obtain ⟨l, h1, x, h2, h⟩ := h
    exact listMPred_good G h
  · simp only [Res.bind_val] at h
    obtain ⟨l, h1, x, h2, h⟩ := h
    exact listMPred_good G h
  · simp only [Res.bind_val] at h
    obtain ⟨l, h1, x, h2, h⟩ := h
    exact listDiffInter_good G ho hn (ha _ (argAt_val h1)) h
  · simp only [Res.bind_val] at h
    obtain ⟨l, h1, x, h2, h⟩ := h
    exact listDiffInter_good G ho hn (ha _ (argAt_val h1)) h
  · simp only [Res.bind_val] at h
    obtain ⟨l, h1, h⟩ := h
    split at h
    · cases h
    · rename_i hs hg
      split at h
      · cases h; exact getNAry_good G (ha _ (argAt_val h1)) hg _ (by simp)
      · cases h; exact ha _ (argAt_val h1)
  · cases h

theorem ofRes_ok {α : Type} {r : Res α} {v : α} (h : Out.ofRes r = .ok (some v)) : r = .val v := by
  cases r with
  | val a => simp only [Out.ofRes, Out.ok.injEq, Option.some.injEq] at h; rw [h]
  | null => simp [Out.ofRes] at h
  | ub => simp [Out.ofRes] at h

theorem evalList_good (G : Good env P) {o : Ops} (ho : OpsGood P o) {k : Kind} {args : List Term} (ha : ∀ a ∈ args, P a)
    (hg : ∀ a ∈ args, a.ground = true) {v : Term} (h : evalList env o k args = .ok (some v)) : P v := by
  simp only [evalList, Out.bind_ok] at h
  obtain ⟨a0, h1, op, h2, h⟩ := h
  have hop : P op := by
    split at h2
    · rename_i hk; exact G.children (by rw [hk]; simp) (ha _ (argO_good_ok h1)) _ (argO_good_ok h2)
    · cases h2; exact ha _ (argO_good_ok h1)
  split at h
  · simp at h
  · rename_i ai hai
    split at h
    · simp at h
    · split at h
      · simp only [Out.bind_ok] at h
        obtain ⟨ty, h3, h⟩ := h
        refine consTerm_good G ho (fun c hc => G.cons _ _ _ hop hai hc) ?_ h
        intro c hc
        simp at hc
        rcases hc with rfl | rfl
        · exact ha _ (argO_good_ok h1)
        · exact G.tmp _ (hg _ (argO_good_ok h3)) (ha _ (argO_good_ok h3))
      · split at h
        · simp at h
        · rename_i a1 h3
          simp only [Out.bind_ok] at h
          obtain ⟨nil, h4, h⟩ := h
          split at h
          · simp at h
          · rename_i nil
            have hn : P nil := by
              refine consTerm_good G ho (fun c hc => G.cons _ _ _ hop hai hc) ?_ h4
              intro c hc
              simp at hc
              rcases hc with rfl | rfl
              · exact ha _ (argO_good_ok h1)
              · exact ha _ (List.mem_of_getElem? h3)
            exact evalListOp_good G hop hn ha (ofRes_ok h)

theorem evalValues_good (G : Good env P) {o : Ops} (ho : OpsGood P o) {k : Kind} {args : List Term} (ha : ∀ a ∈ args, P a)
    (hg : ∀ a ∈ args, a.ground = true) {v : Term} (h : evalValues env o k args = .ok (some v)) : P v := by
  unfold evalValues at h
  split at h
  · split at h
    · simp at h
    · simp only [Out.map_ok] at h
      obtain ⟨r, _, h2⟩ := h
      cases r with
      | none => simp at h2
      | some l => simp only [Option.map_some, Option.some.injEq] at h2; rw [← h2]; exact G.lit _
  · split at h
    · simp at h
    · exact evalList_good G ho ha hg h

theorem stripApply_good (G : Good env P) (t : Term) (h : P t) : P (stripApply t) := by
  fun_induction stripApply t with
  | case1 t r ih => exact ih ((G.node _ _ (by simp)).1 h t (by simp))
  | case2 => exact h

theorem mkListTerm_good (G : Good env P) {l : List Term} (h : ∀ a ∈ l, P a) : P (mkListTerm env l) := by
  induction l with
  | nil => exact G.listNil
  | cons a l ih => exact G.app2 G.listCons (h a (by simp)) (ih fun c hc => h c (by simp [hc]))

theorem dtSelectors_good (G : Good env P) {a v : Term} (ha : P a) (h : dtSelectors env a = .ok (some v)) : P v := by
  simp only [dtSelectors, Out.bind_ok] at h
  obtain ⟨s, h1, h⟩ := h
  have hs : P s := by
    split at h1
    · rename_i hk; exact G.children (by rw [hk]; simp) ha _ (argO_good_ok h1)
    · cases h1; exact ha
  split at h
  · rename_i ai hai
    split at h
    · simp only [Out.ok.injEq] at h; exact G.cons _ _ _ hs hai h
    · simp at h
  · simp at h

theorem dtConstructors_good (G : Good env P) {o : Ops} {a v : Term} (ha : P a) (h : dtConstructors env o a = .ok (some v)) : P v := by
  simp only [dtConstructors, Out.bind_ok] at h
  obtain ⟨isP, h1, h⟩ := h
  have hs : P (if isP = true then stripApply a else a) := by
    split
    · exact stripApply_good G _ ha
    · exact ha
  split at h
  · rename_i ai hai
    split at h
    · split at h
      · split at h
        · cases h
        · rename_i l hl
          simp only [Out.ok.injEq, Option.some.injEq] at h
          subst h
          refine mkListTerm_good G ?_
          intro c hc
          obtain ⟨d, hd, rfl⟩ := List.mem_map.1 hc
          have hd := (naryLoop_good G _ _ _ (G.cons _ _ _ hs hai hl)).1 d hd
          split
          · split
            · exact G.node2 (by simp) hd ha
            · exact hd
          · exact hd
      · simp only [Out.ok.injEq] at h; exact G.cons _ _ _ hs hai h
    · simp at h
  · simp at h

theorem evalGround_good (G : Good env P) {o : Ops} (ho : OpsGood P o) {k : Kind} {args : List Term} (ha : ∀ a ∈ args, P a)
    (hg : ∀ a ∈ args, a.ground = true) {v : Term} (h : evalGround env o k args = .ok (some v)) : P v := by
  unfold evalGround at h
  split at h
  case h_12 =>
    simp only [Out.bind_ok] at h
    obtain ⟨a, h1, h⟩ := h
    split at h
    · exact evalValues_good G ho ha hg h
    · simp only [Out.bind_ok] at h
      obtain ⟨t, h2, h⟩ := h
      split at h
      · simp at h
      · split at h
        · simp only [Out.ok.injEq, Option.some.injEq] at h; subst h; exact ho.getType _ _ (ha _ (argO_good_ok h1)) h2
        · exact evalValues_good G ho ha hg h
  case h_13 =>
    simp only [Out.bind_ok] at h
    obtain ⟨a, h1, h⟩ := h
    split at h
    · simp only [Out.ok.injEq, Option.some.injEq] at h; subst h; exact G.lit _
    · exact evalValues_good G ho ha hg h
  case h_14 =>
    simp only [Out.bind_ok] at h
    obtain ⟨a, h1, h⟩ := h
    split at h
    · simp only [Out.bind_ok] at h
      obtain ⟨ty, h2, h⟩ := h
      split at h
      · exact evalValues_good G ho ha hg h
      · simp only [Out.bind_ok] at h
        obtain ⟨tt, h3, h⟩ := h
        split at h
        · split at h
          · simp only [Out.ok.injEq, Option.some.injEq] at h; subst h; exact G.boundVar _ _ (hg _ (argO_good_ok h2)) (ha _ (argO_good_ok h2))
          · exact evalValues_good G ho ha hg h
        · exact evalValues_good G ho ha hg h
    · exact evalValues_good G ho ha hg h
  case h_15 =>
    simp only [Out.bind_ok] at h
    obtain ⟨a, h1, h⟩ := h
    exact dtSelectors_good G (ha _ (argO_good_ok h1)) h
  case h_16 =>
    simp only [Out.bind_ok] at h
    obtain ⟨a, h1, h⟩ := h
    exact dtConstructors_good G (ha _ (argO_good_ok h1)) h
  case h_17 => exact evalValues_good G ho ha hg h
  all_goals
    simp only [Out.bind_ok, Out.map_ok] at h
    obtain ⟨a, h1, h⟩ := h
    try split at h
    all_goals
      first
        | (simp at h; done)
        | (simp only [Option.some.injEq] at h; subst h; exact G.lit _)
        | (simp only [Out.ok.injEq, Option.some.injEq] at h; subst h; exact G.lit _)
        | (simp only [Out.map_ok] at h
           obtain ⟨c, h2, h⟩ := h
           try split at h
           all_goals first | (cases h; exact G.lit _) | cases h)

theorem opStep_good (G : Good env P) {o : Ops} (ho : OpsGood P o) {k : Kind} {args : List Term} (ha : ∀ a ∈ args, P a) {v : Term}
    (h : opStep env o k args = .ok (some v)) : P v := by
  unfold opStep at h
  split at h
  · simp only [Out.bind_ok] at h
    obtain ⟨c, _, h⟩ := h
    split at h
    · exact argO_some ha h
    · simp at h
  · simp only [Out.bind_ok] at h
    obtain ⟨c, _, h⟩ := h
    split at h
    · simp only [Out.bind_ok] at h
      obtain ⟨c, _, h⟩ := h
      split at h
      · exact argO_some ha h
      · simp at h
    · simp at h
  · split at h
    · simp at h
    · rename_i hg
      exact evalGround_good G ho ha (by simpa using hg) h

/-- the entry points of the type checker preserve `P` -/
theorem ops_good (G : Good env P) : ∀ n, OpsGood P (ops env n)
  | 0 => ⟨by simp [ops], by simp [ops], by simp [ops], by simp [ops]⟩
  | n+1 => by
    have ih := ops_good G n
    refine ⟨?_, ?_, fun k args v ha h => opStep_good G ih ha h, fun t ty ht h => typeStep_good G ih ht h⟩
    · intro t ctx v ht hc h
      have he := runMach_sound (O := (ops env n).evalOp) (P := evalProgram env) n _ (initMach_inv t ctx) h
      refine Eval.good G ?_ ?_ ?_ ?_ he hc ht
      · intro k a r r' h1 h2; simp only [ofOp] at h1 h2; rw [h1] at h2; simpa using h2
      · intro a r r' h1 h2; simp only [ofProg] at h1 h2; rw [h1] at h2; simpa using h2
      · intro k a v ha h1; exact ih.evalOp _ _ _ ha h1
      · intro a body ctx ha h1; exact evalProgram_good G ha h1
    · intro t ctx v self hs hp ht hc hf h
      have he := runMach_sound (O := (ops env n).evalOp) (P := evalProgram env) n _ (initMach_inv t ctx) h
      refine Eval.templ G hs hp ?_ ?_ ?_ ?_ he hc hf ht
      · intro k a r r' h1 h2; simp only [ofOp] at h1 h2; rw [h1] at h2; simpa using h2
      · intro a r r' h1 h2; simp only [ofProg] at h1 h2; rw [h1] at h2; simpa using h2
      · intro k a v ha h1; exact ih.evalOp _ _ _ ha h1
      · intro a body ctx ha h1; exact evalProgram_good G ha h1

/-! ### Construction of terms -/

/-- the recursive calls of `mkExpr` preserve `P` -/
def MkGood (P : Term → Prop) (mk : Kind → List Term → Out Term) : Prop :=
  ∀ k cs t, k ≠ PROOF ∧ k ≠ LAMBDA ∧ isSymbol k = false → (∀ c ∈ cs, P c) → mk k cs = .ok t → P t

theorem mkApplyInternal_good (G : Good env P) {hd : Term} {args : List Term} (hh : P hd) (ha : ∀ a ∈ args, P a) : P (mkApplyInternal hd args) := by
  unfold mkApplyInternal
  induction args generalizing hd with
  | nil => exact hh
  | cons a args ih => exact ih (G.node2 (by simp) hh (ha a (by simp))) fun c hc => ha c (by simp [hc])

theorem mkApply_good (G : Good env P) {cs : List Term} (hc : ∀ c ∈ cs, P c) : P (mkApply cs) := by
  unfold mkApply
  split
  · exact mkApplyInternal_good G (hc _ (by simp)) fun a ha => hc a (by simp at ha ⊢; exact .inr ha)
  · exact (G.node _ _ (by simp)).2 hc

theorem assocStep_good (G : Good env P) {hd : Term} {isNil isLeft : Bool} {st : Term × Nat} {next : Term} (hh : P hd) (hs : P st.1) (hn : P next) :
    P (assocStep env hd isNil isLeft st next).1 := by
  unfold assocStep
  split
  · split
    · exact G.node3 (by simp) hh hs hn
    · exact G.node3 (by simp) hh hn hs
  · show P (if isLeft then _ else _)
    split
    · exact G.app2 hh hs hn
    · exact G.app2 hh hn hs

theorem assocFold_good (G : Good env P) {hd : Term} {isNil isLeft : Bool} (hh : P hd) : ∀ (l : List Term) (st : Term × Nat), P st.1 → (∀ c ∈ l, P c) →
    P (l.foldl (assocStep env hd isNil isLeft) st).1
  | [], st, hs, _ => hs
  | c :: l, st, hs, hl => assocFold_good G hh l _ (assocStep_good G hh hs (hl c (by simp))) fun d hd => hl d (by simp [hd])

theorem mkAssoc_good (G : Good env P) {mk : Kind → List Term → Out Term} (hm : MkGood P mk) {attr : Attr} {hd : Term} {args : List Term}
    {consT : Option Term} (hh : P hd) (ha : ∀ a ∈ args, P a) (hc : ∀ c, consT = some c → P c) {t : Term}
    (h : mkAssoc env mk attr hd args consT = .ok (some t)) : P t := by
  unfold mkAssoc at h
  split at h
  · simp only [Out.ok.injEq] at h; exact hc _ h
  · rename_i a1 rest
    simp only at h
    split at h
    · cases h
    · rename_i first rest' hl
      have hall : ∀ c ∈ first :: rest', P c := by
        intro c hc
        rw [← hl] at hc
        split at hc
        · exact ha c hc
        · exact ha c (List.mem_reverse.1 hc)
      have key : ∀ (p : Term × Nat), P p.1 → ∀ (q : Prop) [Decidable q],
          (if q then (mk EVAL_LIST_SINGLETON_ELIM [hd, p.1]).map some else .ok (some p.1)) = .ok (some t) → P t := by
        intro p hp q _ h
        split at h
        · simp only [Out.map_ok, Option.some.injEq] at h
          obtain ⟨u, h1, rfl⟩ := h
          refine hm _ _ _ (by simp) ?_ h1
          intro c hc
          simp at hc
          rcases hc with rfl | rfl
          · exact hh
          · exact hp
        · simp only [Out.ok.injEq, Option.some.injEq] at h; rw [← h]; exact hp
      refine key _ ?_ _ h
      split
      · refine assocFold_good G hh _ _ ?_ hall
        show P (consT.getD _)
        cases hcc : consT with
        | none => exact G.node2 (by simp) hh (G.node1 (by simp) (ha a1 (by simp)))
        | some c => exact hc c hcc
      · exact assocFold_good G hh _ _ (hall first (by simp)) fun c hc => hall c (by simp [hc])

theorem chainPairs_good (G : Good env P) {hd : Term} (hh : P hd) : ∀ args : List Term, (∀ a ∈ args, P a) → ∀ c ∈ chainPairs hd args, P c
  | a :: b :: r, ha => by
    intro c hc
    simp only [chainPairs, List.mem_cons] at hc
    rcases hc with rfl | hc
    · exact G.app2 hh (ha a (by simp)) (ha b (by simp))
    · exact chainPairs_good G hh (b :: r) (fun x hx => ha x (List.mem_cons_of_mem _ hx)) c hc
  | [], _ => by simp [chainPairs]
  | [_], _ => by simp [chainPairs]

theorem allPairs_good (G : Good env P) {hd : Term} (hh : P hd) : ∀ args : List Term, (∀ a ∈ args, P a) → ∀ c ∈ allPairs hd args, P c
  | a :: r, ha => by
    intro c hc
    simp only [allPairs, List.mem_append, List.mem_map] at hc
    rcases hc with ⟨b, hb, rfl⟩ | hc
    · exact G.app2 hh (ha a (by simp)) (ha b (by simp [hb]))
    · exact allPairs_good G hh r (fun x hx => ha x (List.mem_cons_of_mem _ hx)) c hc
  | [], _ => by simp [allPairs]

theorem combine_good {mk : Kind → List Term → Out Term} (hm : MkGood P mk) {consT : Option Term} {apps : List Term}
    (ha : ∀ a ∈ apps, P a) (hc : ∀ c, consT = some c → P c) {t : Term} (h : combine mk consT apps = .ok (some t)) : P t := by
  unfold combine at h
  split at h
  · simp only [Out.ok.injEq, Option.some.injEq] at h; rw [← h]; exact ha _ (by simp)
  · split at h
    · cases h
    · rename_i c
      simp only [Out.map_ok, Option.some.injEq] at h
      obtain ⟨u, h1, rfl⟩ := h
      refine hm _ _ _ (by simp) ?_ h1
      intro x hx
      rcases List.mem_cons.1 hx with rfl | hx
      · exact hc _ rfl
      · exact ha x hx

theorem mkOpaque_good (G : Good env P) {hd : Term} {args : List Term} {cons : Option Term} (hh : P hd) (ha : ∀ a ∈ args, P a) {t : Term}
    (h : mkOpaque hd args cons = .ok (some t)) : P t := by
  have key : ∀ (l : List Term) (hd : Term), P hd → (∀ a ∈ l, P a) → P (l.foldl (fun curr a => Term.node APPLY_OPAQUE [curr, a]) hd) := by
    intro l
    induction l with
    | nil => intro hd h _; exact h
    | cons a l ih => intro hd h hl; exact ih _ (G.node2 (by simp) h (hl a (by simp))) fun c hc => hl c (by simp [hc])
  unfold mkOpaque at h
  split at h
  · simp only at h
    have ho := fun n : Nat => key (args.take n) hd hh fun a h => ha a (List.mem_of_mem_take h)
    split at h
    · simp at h
    · split at h
      · simp only [Out.ok.injEq, Option.some.injEq] at h; rw [← h]; exact ho _
      · simp only [Out.ok.injEq, Option.some.injEq] at h; rw [← h]
        refine mkApply_good G ?_
        intro c hc
        rcases List.mem_cons.1 hc with rfl | hc
        · exact ho _
        · exact ha c (List.mem_of_mem_drop hc)
  · cases h

theorem mkApplyAttr_good (G : Good env P) {mk : Kind → List Term → Out Term} (hm : MkGood P mk) {ai : AppInfo} {hd : Term} {args : List Term}
    {consT : Option Term} (hh : P hd) (ha : ∀ a ∈ args, P a) (hc : ∀ c, consT = some c → P c) {t : Term}
    (h : mkApplyAttr env mk ai hd args consT = .ok (some t)) : P t := by
  unfold mkApplyAttr at h
  split at h
  · exact mkAssoc_good G hm hh ha hc h
  · split at h
    · exact combine_good hm (chainPairs_good G hh args ha) hc h
    · exact combine_good hm (allPairs_good G hh args ha) hc h
    · simp only [Out.map_ok, Option.some.injEq] at h
      obtain ⟨l, h1, rfl⟩ := h
      refine G.node2 (by simp) hh ?_
      split at h1
      · exact ha _ (argO_good_ok h1)
      · split at h1
        · cases h1
        · rename_i c
          refine hm _ _ _ (by simp) ?_ h1
          intro x hx
          rcases List.mem_cons.1 hx with rfl | hx
          · exact hc _ rfl
          · exact ha x hx
    · exact mkOpaque_good G hh ha h
    · simp at h

theorem overloadLoop_good (G : Good env P) {o : Ops} (ho : OpsGood P o) {mk : Kind → List Term → Out Term} (hm : MkGood P mk) {children : List Term}
    (hch : ∀ c ∈ children, P c) {rt : Option Term} {ra : Bool} : ∀ (fs : List Term) (t : Term), (∀ f ∈ fs, P f) →
    overloadLoop env o mk children rt ra fs = .ok (some t) → P t
  | [], t, _, h => by simp [overloadLoop] at h
  | f :: fs, t, hf, h => by
    simp only [overloadLoop, Out.bind_ok] at h
    obtain ⟨x, h1, ty, h2, h⟩ := h
    have htl : ∀ c ∈ children.tail, P c := fun c hc => hch c (List.mem_of_mem_tail hc)
    have hff := hf f (by simp)
    have hx : P x := by
      simp only [overloadApp, Out.map_ok] at h1
      obtain ⟨r, h3, rfl⟩ := h1
      cases r with
      | none =>
        refine mkApply_good G ?_
        intro c hc
        rcases List.mem_cons.1 hc with rfl | hc
        · exact hff
        · exact htl c hc
      | some r =>
        show P r
        split at h3
        · simp at h3
        · rename_i ai hai
          simp only [Out.bind_ok] at h3
          obtain ⟨c, h4, h5⟩ := h3
          refine mkApplyAttr_good G hm hff htl ?_ h5
          intro c' hc'
          subst hc'
          exact consTerm_good G ho (fun c hc => G.cons _ _ _ hff hai hc) hch h4
    split at h
    · split at h
      · simp only [Out.ok.injEq, Option.some.injEq] at h
        rw [← h]
        split
        · exact hx
        · exact hff
      · exact overloadLoop_good G ho hm hch fs t (fun f h => hf f (by simp [h])) h
    · exact overloadLoop_good G ho hm hch fs t (fun f h => hf f (by simp [h])) h

theorem getOverload_good (G : Good env P) {o : Ops} (ho : OpsGood P o) {mk : Kind → List Term → Out Term} (hm : MkGood P mk) {children ov : List Term}
    (hch : ∀ c ∈ children, P c) {rt : Option Term} {ra : Bool} (hov : ∀ f ∈ ov, P f) {t : Term}
    (h : getOverload env o mk ov children rt ra = .ok (some t)) : P t :=
  overloadLoop_good G ho hm hch _ t (fun f hf => hov f (List.mem_reverse.1 hf)) h

theorem mkPlainApp_good (G : Good env P) {o : Ops} (ho : OpsGood P o) {hd : Term} {args : List Term} (hh : P hd) (ha : ∀ a ∈ args, P a) {t : Term}
    (h : mkPlainApp env o hd args = .ok t) : P t := by
  have hall : ∀ c ∈ hd :: args, P c := by
    intro c hc
    rcases List.mem_cons.1 hc with rfl | hc
    · exact hh
    · exact ha c hc
  have hcur : P (if hd.kind ≠ PROGRAM_CONST ∧ hd.kind ≠ PROOF_RULE then mkApply (hd :: args) else .node APPLY (hd :: args)) := by
    split
    · exact mkApply_good G hall
    · exact (G.node _ _ (by simp)).2 hall
  unfold mkPlainApp at h
  simp only at h
  split at h
  · rename_i hk
    simp only [Out.bind_ok] at h
    obtain ⟨vs, h1, body, h2, h⟩ := h
    split at h
    · exact ho.evaluate _ _ _ (G.children (by rw [hk]; simp) hh _ (argO_good_ok h2)) (CtxGood.zip ha) h
    · cases h; exact hcur
  · split at h
    · split at h
      · simp only [Out.bind_ok] at h
        obtain ⟨ty, h1, h⟩ := h
        split at h
        · cases h
        · split at h
          · simp only [Out.bind_ok] at h
            obtain ⟨r, h2, h⟩ := h
            split at h
            · obtain ⟨h3, h4⟩ := evalProgram_good G hall h2
              exact ho.evaluate _ _ _ h3 h4 h
            · cases h; exact hcur
          · cases h; exact hcur
      · cases h; exact hcur
    · cases h; exact hcur

theorem mkApp_good (G : Good env P) {o : Ops} (ho : OpsGood P o) {mk : Kind → List Term → Out Term} (hm : MkGood P mk) {hd : Term} {args : List Term}
    (hh : P hd) (ha : ∀ a ∈ args, P a) {t : Term} (h : mkApp env o mk hd args = .ok t) : P t := by
  have hall : ∀ c ∈ hd :: args, P c := by
    intro c hc
    rcases List.mem_cons.1 hc with rfl | hc
    · exact hh
    · exact ha c hc
  unfold mkApp at h
  split at h
  · exact mkPlainApp_good G ho hh ha h
  · rename_i ai hai
    split at h
    · split at h
      · split at h
        · cases h
        · rename_i ret hr
          cases h
          exact mkFunctionType_good G (fun t ht => ha t (List.dropLast_subset _ ht)) (ha _ (List.mem_of_getLast? hr))
      · split at h
        · cases h; exact mkApply_good G ha
        · exact hm _ _ _ (G.kind _ _ hai) ha h
    · simp only [Out.bind_ok] at h
      obtain ⟨r, h1, h⟩ := h
      split at h
      · cases h
        split at h1
        · simp at h1
        · exact getOverload_good G ho hm hall (fun f hf => G.overloads _ _ hf) h1
      · simp only [Out.bind_ok] at h
        obtain ⟨c, h2, r2, h3, h⟩ := h
        split at h
        · cases h
          refine mkApplyAttr_good G hm hh ha ?_ h3
          intro c' hc'
          subst hc'
          exact consTerm_good G ho (fun c hc => G.cons _ _ _ hh hai hc) hall h2
        · exact mkPlainApp_good G ho hh ha h

theorem evaluateLiteralOp_good (G : Good env P) {o : Ops} (ho : OpsGood P o) {k : Kind} {args : List Term} (hk : k ≠ PROOF ∧ k ≠ LAMBDA ∧ isSymbol k = false)
    (ha : ∀ a ∈ args, P a) {t : Term} (h : evaluateLiteralOp o k args = .ok t) : P t := by
  unfold evaluateLiteralOp at h
  simp only [Out.map_ok] at h
  obtain ⟨r, h1, rfl⟩ := h
  cases r with
  | none => exact (G.node _ _ hk).2 ha
  | some r => exact ho.evalOp _ _ _ ha h1

theorem evaluateProgramApp_good (G : Good env P) {o : Ops} (ho : OpsGood P o) {cs : List Term} (hc : ∀ c ∈ cs, P c) {t : Term}
    (h : evaluateProgramApp env o cs = .ok t) : P t := by
  unfold evaluateProgramApp at h
  simp only [Out.bind_ok] at h
  obtain ⟨r, h1, h⟩ := h
  split at h
  · obtain ⟨h3, h4⟩ := evalProgram_good G hc h1
    exact ho.evaluate _ _ _ h3 h4 h
  · cases h; exact (G.node _ _ (by simp)).2 hc

theorem functionTypeLoop_good (G : Good env P) (i : Bool) (t : Term) (h : P t) :
    (∀ a ∈ (functionTypeLoop i t).1, P a) ∧ P (functionTypeLoop i t).2 := by
  fun_induction functionTypeLoop i t with
  | case1 i a r as t heq ih =>
    have hc := (G.node _ _ (by simp)).1 h
    have := ih (hc r (by simp))
    rw [heq] at this
    exact ⟨by simpa using ⟨hc a (by simp), this.1⟩, this.2⟩
  | case2 a b r ih => exact ih ((G.node _ _ (by simp)).1 h r (by simp))
  | case3 => exact ⟨by simp, h⟩

theorem mkLitOp_good (G : Good env P) {o : Ops} (ho : OpsGood P o) {mk : Kind → List Term → Out Term} (hm : MkGood P mk) {k : Kind} {cs : List Term}
    (hk : k ≠ PROOF ∧ k ≠ LAMBDA ∧ isSymbol k = false) (hc : ∀ c ∈ cs, P c) {t : Term} (h : mkLitOp o mk k cs = .ok t) : P t := by
  unfold mkLitOp at h
  split at h
  · rename_i a b c r _
    have key : ∀ (l : List Term) (x : Out Term), (∀ t, x = .ok t → P t) → (∀ c ∈ l, P c) →
        ∀ t, l.foldl (fun curr x => curr.bind fun t => mk k [t, x]) x = .ok t → P t := by
      intro l
      induction l with
      | nil => intro x hx _ t h; exact hx t h
      | cons y l ih =>
        intro x hx hl t h
        refine ih _ ?_ (fun c hc => hl c (by simp [hc])) t h
        intro u hu
        simp only [Out.bind_ok] at hu
        obtain ⟨w, h1, h2⟩ := hu
        exact hm _ _ _ hk (by simpa using ⟨hx w h1, hl y (by simp)⟩) h2
    refine key _ _ ?_ (fun x hx => hc x (by simp at hx ⊢; simp [hx])) t h
    intro u hu
    exact hm _ _ _ hk (by simpa using ⟨hc a (by simp), hc b (by simp)⟩) hu
  · split at h
    · exact evaluateLiteralOp_good G ho hk hc h
    · cases h; exact (G.node _ _ hk).2 hc

/-- without `retApply` one of the overloads is returned -/
theorem getOverload_mem {o : Ops} {mk : Kind → List Term → Out Term} {children ov : List Term} {rt : Option Term} {t : Term}
    (h : getOverload env o mk ov children rt false = .ok (some t)) : t ∈ ov := by
  have key : ∀ l : List Term, overloadLoop env o mk children rt false l = .ok (some t) → t ∈ l := by
    intro l
    induction l with
    | nil => intro h; simp [overloadLoop] at h
    | cons f fs ih =>
      intro h
      simp only [overloadLoop, Out.bind_ok] at h
      obtain ⟨x, _, ty, _, h⟩ := h
      split at h
      · split at h
        · simp at h; simp [h]
        · exact List.mem_cons_of_mem _ (ih h)
      · exact List.mem_cons_of_mem _ (ih h)
  exact List.mem_reverse.1 (key _ h)

theorem mkAs_good (G : Good env P) {o : Ops} {mk : Kind → List Term → Out Term} {t ty : Term}
    (ht : P t) (hty : P ty) {v : Term} (h : mkAs env o mk t ty = .ok v) : P v := by
  simp only [mkAs, Out.map_ok] at h
  obtain ⟨r, h1, rfl⟩ := h
  cases r with
  | none => exact G.node2 (by simp) ht hty
  | some r =>
    have hf := getOverload_mem h1
    simp only [Option.getD_some]
    split at hf
    · exact G.overloads _ _ hf
    · simp at hf; rw [hf]; exact ht

/-- construction of terms preserves `P` -/
theorem mkExpr_good (G : Good env P) {o : Ops} (ho : OpsGood P o) : ∀ n, MkGood P (mkExpr env o n)
  | 0 => by intro k cs t _ _ h; simp [mkExpr] at h
  | n+1 => by
    have hm := mkExpr_good G ho n
    intro k cs t hk hc h
    simp only [mkExpr, mkExprStep] at h
    split at h
    · split at h
      · cases h
      · exact mkApp_good G ho hm (hc _ (by simp)) (fun a ha => hc a (by simp [ha])) h
    · split at h
      · exact mkLitOp_good G ho hm hk hc h
      · split at h
        · split at h
          · cases h
          · split at h
            · exact hm _ _ _ (by simp) hc h
            · cases h; exact (G.node _ _ (by simp)).2 hc
          · cases h; exact (G.node _ _ (by simp)).2 hc
        · split at h
          · split at h
            · exact mkAs_good G (hc _ (by simp)) (hc _ (by simp)) h
            · cases h; exact (G.node _ _ (by simp)).2 hc
          · cases h; exact (G.node _ _ hk).2 hc

theorem mkRequires_good {mk : Kind → List Term → Out Term} (hm : MkGood P mk) : ∀ (reqs : List (Term × Term)) (ret t : Term), P ret →
    (∀ q ∈ reqs, P q.1 ∧ P q.2) → mkRequires mk reqs ret = .ok t → P t
  | [], ret, t, hr, _, h => by simp only [mkRequires, List.foldr_nil, Out.ok.injEq] at h; rw [← h]; exact hr
  | q :: reqs, ret, t, hr, hq, h => by
    simp only [mkRequires, List.foldr_cons, Out.bind_ok] at h
    obtain ⟨c, h1, h2⟩ := h
    have := mkRequires_good hm reqs ret c hr (fun q h => hq q (by simp [h])) h1
    refine hm _ _ _ (by simp) ?_ h2
    have := hq q (by simp)
    simp [*]

end Ethos.Props
