import Verif.Props.Reduced
import Verif.Props.ListTypes
import Verif.Props.Typing
import Verif.Spec.Fixed
/-
C33 for the operators that build terms: lists, types, variables, constructors and selectors.
-/
namespace Ethos.Props
open Ethos Kind Spec

variable {env : Env}

/-- evaluates to itself -/
def Fix (env : Env) (t : Term) : Prop := Eval (OpResult env) (ProgResult env) [] t t

/-- evaluates to itself, as do the parts of which lists consist -/
inductive Norm (env : Env) : Term → Prop
  | mk (t : Term) : Fix env t → (t.kind = APPLY ∨ t.kind = APPLY_OPAQUE ∨ t.kind = PARAMETERIZED → ∀ c ∈ t.children, Norm env c) → Norm env t

theorem Norm.fix {t : Term} : Norm env t → Fix env t | .mk _ h _ => h
theorem Norm.child {t : Term} (h : Norm env t) (hk : t.kind = APPLY ∨ t.kind = APPLY_OPAQUE ∨ t.kind = PARAMETERIZED) : ∀ c ∈ t.children, Norm env c := by
  cases h with
  | mk _ _ h => exact h hk

theorem fix_children : ∀ {l : List Term}, (∀ c ∈ l, Norm env c) → EvalList (OpResult env) (ProgResult env) [] l l
  | [], _ => .nil _
  | a :: l, h => .cons _ _ _ _ _ (h a (by simp)).fix (fix_children fun c hc => h c (by simp [hc]))

theorem norm_app {k : Kind} {p : Term} {ps : List Term} (hk : k = APPLY ∨ k = APPLY_OPAQUE) (hp : ¬ IsProg p) (h : ∀ c ∈ p :: ps, Norm env c) : Norm env (.node k (p :: ps)) :=
  .mk _ (.app _ _ _ _ _ hk (fix_children h) hp) fun _ => h

theorem norm_lit (l : Lit) : Norm env (.lit l) :=
  .mk _ (.leaf _ _ (by intro h; cases l <;> exact absurd h.1 (by simp [Term.kind, Lit.kind])) rfl) (by simp [Term.children])

mutual
theorem norm_value : ∀ (t : Term), IsValue t → Norm env t
  | .sym k i, h => .mk _ (fixed_value h) (by simp [Term.children])
  | .lit l, h => .mk _ (fixed_value h) (by simp [Term.children])
  | .node k cs, h => .mk _ (fixed_value h) fun _ => norm_values cs fun c hc => value_sub h (.child _ _ _ c hc (.refl _))
theorem norm_values : ∀ (l : List Term), (∀ c ∈ l, IsValue c) → ∀ c ∈ l, Norm env c
  | [], _ => by simp
  | a :: l, h => by
    intro c hc
    rcases List.mem_cons.1 hc with h1 | hc
    · rw [h1]; exact norm_value a (h a (by simp))
    · exact norm_values l (fun c hc => h c (by simp [hc])) c hc
end

theorem norm_leaf {t : Term} (hp : ¬ IsParam t) (h : t.children = []) : Norm env t := .mk _ (.leaf _ _ hp h) (by simp [h])

/-- the reduced terms are closed under building and taking apart lists of `f` -/
theorem norm_lists {f nil : Term} {left : Bool} (hf : Norm env f) (hp : ¬ IsProg f) (hn : Norm env nil) : ListClosed f nil left (Norm env) (Norm env) := by
  have app : ∀ x y, Norm env x → Norm env y → Norm env (app2 f x y) := by
    intro x y hx hy
    refine norm_app (.inl rfl) (by simp [IsProg, Term.kind]) ?_
    intro c hc
    simp only [List.mem_cons, List.not_mem_nil, or_false] at hc
    rcases hc with rfl | rfl
    · refine norm_app (.inl rfl) hp ?_
      intro c hc
      simp only [List.mem_cons, List.not_mem_nil, or_false] at hc
      rcases hc with rfl | rfl
      · exact hf
      · exact hx
    · exact hy
  refine ⟨hn, ?_, ?_⟩
  · intro x l hx hl
    cases left with
    | true => exact app _ _ hl hx
    | false => exact app _ _ hx hl
  · intro a b r1 r2 h
    have h1 := h.child (.inl rfl)
    have h2 := (h1 (.node APPLY (f :: a :: r1)) (by simp [Term.children])).child (.inl rfl) a (by simp [Term.children])
    have h3 := h1 b (by simp [Term.children])
    cases left with
    | true => exact ⟨h2, h3⟩
    | false => exact ⟨h2, h3⟩

/-- a list operator applied to reduced terms gives a reduced term -/
theorem list_norm (hO : ReducedEnv env) {k : Kind} {args : List Term} {v : Term} (hk : isListLiteralOp k = true) (hn : k ≠ EVAL_NIL)
    (ha : ∀ a ∈ args, Norm env a) (h : OpResult env k args (some v)) : Norm env v := by
  obtain ⟨n, a0, f, ai, a1, nil, h0, h1, h2, h3, h4, h5, h6⟩ := list_result hk hn h
  obtain ⟨left, h7⟩ := (nilAttr_iff _).1 h3
  have hf : Norm env f := by
    have := ha a0 (List.mem_of_getElem? h0)
    split at h1
    · rename_i hp
      exact this.child (.inr (.inr hp)) f (List.mem_of_getElem? (argO_ok h1))
    · cases h1; exact this
  have hp : ¬ IsProg f := by
    obtain ⟨at1, c, kk, ov⟩ := ai
    cases c with
    | none => simp [consTerm] at h5
    | some c => exact hO.operators f at1 c left ⟨kk, ov, h2⟩ h7
  rw [nilAttr_left h7] at h6
  have e1 := ha a1 (List.mem_of_getElem? h4)
  have g : ∀ i l, args[i]? = some l → Norm env l := fun i l hl => ha l (List.mem_of_getElem? hl)
  by_cases hc : k = EVAL_CONS
  · subst hc
    -- the terminator is the end of the list
    have hl : Norm env nil := by
      simp only [evalListOp, Res.bind_val] at h6
      obtain ⟨ret, g1, h6⟩ := h6
      split at h6
      · rename_i hr
        have : (naryLoop f left ret).2 = nil := by simpa [isNAryList] using hr
        exact this ▸ (naryLoop_closed (norm_lists hf hp hf) ret (g 2 _ (argAt_get g1))).2
      · cases h6
    exact evalListOp_cons (norm_lists hf hp hl) (g 1) (g 2) h6
  · have hl : Norm env nil := by
      have := list_arg hk hc h4 h6
      exact this ▸ (naryLoop_closed (norm_lists hf hp hf) a1 e1).2
    have C := norm_lists (left := left) hf hp hl
    by_cases h8 : ListToList k
    · exact evalListOp_closed C h8 (g 1) (fun _ => g 2) h6
    · by_cases h9 : k = EVAL_LIST_NTH
      · subst h9; exact evalListOp_nth C (g 1) h6
      · by_cases h10 : k = EVAL_LIST_SINGLETON_ELIM
        · subst h10; rcases evalListOp_singleton C (g 1) h6 with h | h <;> exact h
        · have : k = EVAL_LIST_LENGTH ∨ k = EVAL_LIST_FIND ∨ k = EVAL_LIST_MINCLUDE ∨ k = EVAL_LIST_MEQ := by
            unfold isListLiteralOp at hk
            split at hk <;> simp_all [ListToList]
          have key : ∃ l, v = .lit l := by
            rcases this with rfl | rfl | rfl | rfl <;> simp only [evalListOp, Res.bind_val] at h6
            · obtain ⟨l, _, h6⟩ := h6
              split at h6
              · cases h6
              · cases h6; exact ⟨_, rfl⟩
            · obtain ⟨l, _, h6⟩ := h6
              split at h6
              · cases h6
              · simp only [Res.bind_val] at h6
                obtain ⟨x, _, h6⟩ := h6
                split at h6 <;> (cases h6; exact ⟨_, rfl⟩)
            · obtain ⟨l, _, l2, _, h6⟩ := h6
              obtain ⟨b, rfl⟩ := mpred_bool h6
              exact ⟨_, rfl⟩
            · obtain ⟨l, _, l2, _, h6⟩ := h6
              obtain ⟨b, rfl⟩ := mpred_bool h6
              exact ⟨_, rfl⟩
          obtain ⟨l, rfl⟩ := key
          exact norm_lit l

theorem naryLoop_sub {f : Term} {left : Bool} {t c : Term} : c ∈ (naryLoop f left t).1 → Sub c t := by
  fun_induction naryLoop f left t with
  | case1 x r1 y r2 _ cs e heq ih =>
    intro h
    have h1 : Sub x (.node APPLY (f :: x :: r1)) := .child _ _ _ x (by simp) (.refl _)
    simp only [List.mem_cons] at h
    rcases h with rfl | h
    · exact .child _ _ _ _ (by simp) (.refl _)
    · exact (ih (by simpa [heq] using h)).trans (h1.trans (.child _ _ _ _ (by simp) (.refl _)))
  | case2 x r1 y r2 hl cs e heq ih =>
    intro h
    have h1 : Sub x (.node APPLY (f :: x :: r1)) := .child _ _ _ x (by simp) (.refl _)
    simp only [List.mem_cons] at h
    rcases h with rfl | h
    · exact h1.trans (.child _ _ _ _ (by simp) (.refl _))
    · exact (ih (by simpa [heq] using h)).trans (.child _ _ _ _ (by simp) (.refl _))
  | case3 => simp
  | case4 => simp

theorem mkList_norm (hO : ReducedEnv env) : ∀ {l : List Term}, (∀ c ∈ l, Norm env c) → Norm env (mkListTerm env l)
  | [], _ => norm_value _ hO.listNil
  | a :: l, h => by
    have hp : ¬ IsProg env.listCons := fun hp => (hO.listCons _ (.refl _)).2.2 (.inl hp)
    have := (norm_lists (left := false) (norm_value _ hO.listCons) hp (norm_value _ hO.listNil)).app a (mkListTerm env l) (h a (by simp))
      (mkList_norm hO fun c hc => h c (by simp [hc]))
    exact this

/-- every builtin operator other than `eo::nil` applied to reduced terms gives a reduced term -/
theorem op_norm (hO : ReducedEnv env) {k : Kind} {args : List Term} {v : Term} (hn : k ≠ EVAL_NIL)
    (ha : ∀ a ∈ args, Norm env a) (h : OpResult env k args (some v)) : Norm env v := by
  by_cases hl : isListLiteralOp k = true
  · exact list_norm hO hl hn ha h
  simp only [Bool.not_eq_true] at hl
  by_cases hs : k = EVAL_TYPE_OF ∨ k = EVAL_VAR ∨ k = EVAL_DT_CONSTRUCTORS ∨ k = EVAL_DT_SELECTORS
  · obtain ⟨n, h⟩ := h
    cases n with
    | zero => cases h
    | succ n =>
      have h : opStep env (ops env n) k args = .ok (some v) := h
      have lit : evalValues env (ops env n) k args = .ok (some v) → Norm env v := by
        intro h
        obtain ⟨l, rfl⟩ := select_lit hl h
        exact norm_lit l
      have var : ∀ x ty, Norm env (env.boundVar x ty) := by
        intro x ty
        obtain ⟨i, hi⟩ := hO.variables x ty
        rw [hi]
        exact norm_leaf (by simp [IsParam, Term.kind]) rfl
      have arg : ∀ {i a}, argO args i = .ok a → Norm env a := fun h => ha _ (List.mem_of_getElem? (argO_ok h))
      rcases hs with rfl | rfl | rfl | rfl
      all_goals
        simp only [opStep] at h
        split at h
        · simp at h
        simp only [evalGround, Out.bind_ok] at h
        obtain ⟨a, h0, h⟩ := h
      · split at h
        · exact lit h
        · simp only [Out.bind_ok] at h
          obtain ⟨t, h1, h⟩ := h
          split at h
          · simp at h
          · split at h
            · rename_i t hg
              cases h
              exact norm_value _ (C46_reduced hO.types ⟨n, h1⟩ ((closed_iff _).2 hg))
            · exact lit h
      · split at h
        · simp only [Out.bind_ok] at h
          obtain ⟨ty, _, h⟩ := h
          split at h
          · exact lit h
          · simp only [Out.bind_ok] at h
            obtain ⟨tt, _, h⟩ := h
            split at h
            · split at h
              · cases h
                exact var _ _
              · exact lit h
            · exact lit h
        · exact lit h
      · unfold dtConstructors at h
        simp only [Out.bind_ok] at h
        obtain ⟨isP, _, h⟩ := h
        split at h
        · rename_i ai hai
          obtain ⟨at1, c, kk, ov⟩ := ai
          simp only at h
          split at h
          · rename_i hat
            subst hat
            have hc : ∀ l, c = some l → Norm env l := by
              rintro l rfl
              exact norm_value _ (hO.datatypes _ .DATATYPE l ⟨kk, ov, hai⟩ (by simp))
            split at h
            · split at h
              · cases h
              · rename_i l
                cases h
                have hp : ¬ IsProg env.listCons := fun hp => (hO.listCons _ (.refl _)).2.2 (.inl hp)
                have hL := naryLoop_closed (norm_lists (left := false) (norm_value _ hO.listCons) hp (norm_value _ hO.listNil)) l (hc l rfl)
                refine mkList_norm hO ?_
                intro c hc'
                simp only [List.mem_map] at hc'
                obtain ⟨c', hc', rfl⟩ := hc'
                have hv : IsValue l := hO.datatypes _ .DATATYPE l ⟨kk, ov, hai⟩ (by simp)
                split
                · split
                  · refine norm_app (.inr rfl) ?_ ?_
                    · exact fun hq => (value_sub hv (naryLoop_sub hc') _ (.refl _)).2.2 (.inl hq)
                    · intro d hd
                      simp only [List.mem_cons, List.not_mem_nil, or_false] at hd
                      rcases hd with rfl | rfl
                      · exact hL.1 _ hc'
                      · exact arg h0
                  · exact hL.1 _ hc'
                · exact hL.1 _ hc'
            · simp only [Out.ok.injEq] at h
              exact hc _ h
          · simp at h
        · simp at h
      · unfold dtSelectors at h
        simp only [Out.bind_ok] at h
        obtain ⟨s, _, h⟩ := h
        split at h
        · rename_i ai hai
          obtain ⟨at1, c, kk, ov⟩ := ai
          simp only at h
          split at h
          · rename_i hat
            simp only [Out.ok.injEq] at h
            subst h
            exact norm_value _ (hO.datatypes _ at1 v ⟨kk, ov, hai⟩ (by rcases hat with rfl | rfl <;> simp))
          · simp at h
        · simp at h
  · simp only [not_or] at hs
    rcases select_result hl hs.1 hs.2.1 hs.2.2.1 hs.2.2.2 h with ⟨l, rfl⟩ | hm
    · exact norm_lit l
    · exact ha _ hm

theorem prog_values' (hR : NoNilPrograms env) {args : List Term} {body : Term} {ctx : Ctx} (h : ProgResult env args (some (body, ctx))) :
    NoNil body ∧ (∀ p v, ctx.find p = some v → IsValue v) ∧ (body.ground = true ∨ ctx = [] → IsValue body) := prog_values_of hR h

theorem NoNil.child {k : Kind} {cs : List Term} (h : NoNil (.node k cs)) : ∀ c ∈ cs, NoNil c :=
  fun _ hc k' cs' hs => h k' cs' (.child _ _ _ _ hc hs)

theorem norm_op {k : Kind} {cs : List Term} (hk : isLiteralOp k = true) (h : Fix env (.node k cs)) : Norm env (.node k cs) := by
  refine .mk _ h ?_
  rintro (h | h | h) <;> (simp only [Term.kind] at h; subst h; cases hk)

mutual
theorem eval_norm (hO : ReducedEnv env) (hR : NoNilPrograms env) : ∀ {ctx : Ctx} {t v : Term}, Eval (OpResult env) (ProgResult env) ctx t v →
    (∀ p v, ctx.find p = some v → IsValue v) → NoNil t → Norm env v
  | _, _, _, .bound _ t v _ hf, hc, _ => norm_value _ (hc _ _ hf)
  | _, _, _, .free _ t hp _, _, _ => .mk _ (.free _ _ hp rfl) (by rw [hp.2]; simp)
  | _, _, _, .leaf _ t hp h, _, _ => norm_leaf hp h
  | _, _, _, .ite _ c x y b v _ h, hc, hs => eval_norm hO hR h hc (by cases b <;> exact NoNil.child hs _ (by simp))
  | _, _, _, .iteStuck _ c x y c' x' y' h1 hb h2 h3, hc, hs =>
    norm_op rfl (.iteStuck _ _ _ _ _ _ _ (eval_norm hO hR h1 hc (NoNil.child hs _ (by simp))).fix hb (eval_norm hO hR h2 hc (NoNil.child hs _ (by simp))).fix
      (eval_norm hO hR h3 hc (NoNil.child hs _ (by simp))).fix)
  | _, _, _, .iteBad _ cs h1 h2, _, _ => norm_op rfl (.iteBad _ _ h1 h2)
  | _, _, _, .op _ k cs cs' v hk hi hn hl ho, hc, hs =>
    op_norm hO (hs k cs (.refl _)) (evals_norm hO hR hl hc (NoNil.child hs)) ho
  | _, _, _, .opStuck _ k cs cs' hk hi hn hl ho, hc, hs =>
    norm_op hk (.opStuck _ _ _ _ hk hi (by rintro rfl; cases hl; exact hn rfl) (fix_children (evals_norm hO hR hl hc (NoNil.child hs))) ho)
  | _, _, _, .progStuck _ k cs p ps hk hl hp hq, hc, hs => .mk _ (.progStuck _ _ _ _ _ hk (fix_children (evals_norm hO hR hl hc (NoNil.child hs))) hp hq)
      fun _ => evals_norm hO hR hl hc (NoNil.child hs)
  | _, _, _, .progConst _ k cs p ps body ctx' hk hl hp hq hb, _, _ => norm_value _ ((prog_values' hR hq).2.2 hb)
  | _, _, _, .progRun _ k cs p ps body ctx' v hk hl hp hq _ _ h, _, _ => eval_norm hO hR h (prog_values' hR hq).2.1 (prog_values' hR hq).1
  | _, _, _, .app _ k cs p ps hk hl hp, hc, hs => norm_app hk hp (evals_norm hO hR hl hc (NoNil.child hs))
  | _, _, _, .other _ k cs cs' h1 h2 h3 hn hl, hc, hs =>
    .mk _ (.other _ _ _ _ h1 h2 h3 (by rintro rfl; cases hl; exact hn rfl) (fix_children (evals_norm hO hR hl hc (NoNil.child hs))))
      fun _ => evals_norm hO hR hl hc (NoNil.child hs)
theorem evals_norm (hO : ReducedEnv env) (hR : NoNilPrograms env) : ∀ {ctx : Ctx} {ts vs : List Term}, EvalList (OpResult env) (ProgResult env) ctx ts vs →
    (∀ p v, ctx.find p = some v → IsValue v) → (∀ t ∈ ts, NoNil t) → ∀ v ∈ vs, Norm env v
  | _, _, _, .nil _, _, _ => by simp
  | _, _, _, .cons _ c cs v vs h1 h2, hc, hs => by
    have a := eval_norm hO hR h1 hc (hs _ (by simp))
    have b := evals_norm hO hR h2 hc fun t ht => hs t (by simp [ht])
    intro u hu
    rcases List.mem_cons.1 hu with rfl | hu
    · exact a
    · exact b _ hu
end

/-- **C33**.  The result of an evaluation evaluates to itself, for all terms and programs that do not use `eo::nil`, if the right-hand
sides of programs that are returned without being evaluated have nothing to compute.  (The full statement has neither condition; without
the second it fails, see `C33_refuted`.) -/
theorem C33_operators_partial (hO : ReducedEnv env) (hR : NoNilPrograms env) {ctx : Ctx} {t v : Term} (hc : ∀ p v, ctx.find p = some v → IsValue v)
    (hs : NoNil t) (h : EvaluatesTo env ctx t v) : EvaluatesTo env [] v v :=
  (evaluatesTo_iff _ _ _ _).2 (eval_norm hO hR ((evaluatesTo_iff _ _ _ _).1 h) hc hs).fix

/-! ### Example -/

/-- a program with the case `((g x) (eo::list_concat f x x))`, where `f` has the terminator `c` -/
def catProg : Term := .node PROGRAM [
  .node TUPLE [.node APPLY [.sym PROGRAM_CONST 20, .sym PARAM 23], .node EVAL_LIST_CONCAT [.sym CONST 22, .sym PARAM 23, .sym PARAM 23]]]
def catEnv : Env := { exB with
  appInfo := fun t => if t = .sym PROGRAM_CONST 20 then some ⟨.PROGRAM, some catProg, NONE, none⟩
    else if t = .sym CONST 22 then some ⟨.RIGHT_ASSOC_NIL, some (.sym CONST 21), NONE, none⟩ else none }
def catTerm : Term := .node APPLY [.sym PROGRAM_CONST 20, app2 (.sym CONST 22) (.sym CONST 24) (.sym CONST 21)]
def catResult : Term := app2 (.sym CONST 22) (.sym CONST 24) (app2 (.sym CONST 22) (.sym CONST 24) (.sym CONST 21))

theorem catEnv_cases {f : Term} {a : Attr} {ct : Term} (h : Declared catEnv f a ct) :
    (f = .sym PROGRAM_CONST 20 ∧ a = .PROGRAM) ∨ (f = .sym CONST 22 ∧ a = .RIGHT_ASSOC_NIL) := by
  obtain ⟨k, ov, h⟩ := h
  simp only [catEnv] at h
  split at h
  · rename_i e; cases h; exact .inl ⟨e, rfl⟩
  · split at h
    · rename_i e; cases h; exact .inr ⟨e, rfl⟩
    · cases h

theorem noNil_of {t : Term} (h : ∀ s, Sub s t → s.kind ≠ EVAL_NIL) : NoNil t := fun k cs hs => h _ hs

/-- the hypotheses of `C33_operators_partial` are met: `(g (f a c))` evaluates to `(f a (f a c))` -/
example : ReducedEnv catEnv ∧ NoNilPrograms catEnv ∧ NoNil catTerm ∧ EvaluatesTo catEnv [] catTerm catResult := by
  refine ⟨⟨?_, ?_, ?_, ?_, ?_, ?_⟩, ?_, ?_, 60, by decide +kernel⟩
  · intro s ty h hc
    have hc : Closed ty := hc
    rw [closed_iff] at hc
    rw [isValue_iff]
    simp only [catEnv, exB] at h
    repeat' (split at h)
    all_goals first | (cases h; done) | skip
    all_goals (cases h; first | exact ⟨by decide, by decide⟩ | exact absurd hc (by decide))
  · intro f a ct left h hn
    rcases catEnv_cases h with ⟨rfl, rfl⟩ | ⟨rfl, rfl⟩
    · cases hn
    · simp [IsProg, Term.kind]
  · intro x ty; exact ⟨_, rfl⟩
  · exact (isValue_iff _).2 ⟨by decide, by decide⟩
  · exact (isValue_iff _).2 ⟨by decide, by decide⟩
  · intro c a l h ha
    rcases catEnv_cases h with ⟨rfl, rfl⟩ | ⟨rfl, rfl⟩ <;> simp at ha
  · intro p prog hp
    have : prog = catProg := by
      simp only [Env.program, catEnv] at hp
      split at hp
      · rename_i ai hai
        split at hai
        · cases hai; simpa using hp.symm
        · split at hai
          · cases hai; simp at hp
          · cases hai
      · cases hp
    subst this
    intro c hc pat body r he
    simp only [catProg, Term.children, List.mem_cons, List.not_mem_nil, or_false] at hc
    subst hc
    cases he
    refine ⟨noNil_of ?_, ?_⟩
    · intro s hs
      rcases hs.inv with rfl | ⟨c, hc, hs⟩
      · simp [Term.kind]
      · simp only [Term.children, List.mem_cons, List.not_mem_nil, or_false] at hc
        rcases hc with rfl | rfl | rfl <;> (cases hs; simp [Term.kind])
    · rintro (h | h)
      · exact absurd ⟨rfl, rfl⟩ (h (.sym PARAM 23) (.child _ _ _ (.sym PARAM 23) (by simp) (.refl _)))
      · exact absurd ⟨rfl, rfl⟩ (h (.sym PARAM 23) (by simp [Term.children]) (.sym PARAM 23) (.refl _))
  · refine noNil_of fun s hs => ?_
    rcases hs.inv with rfl | ⟨c, hc, hs⟩
    · simp [Term.kind, catTerm]
    · simp only [Term.children, catTerm, List.mem_cons, List.not_mem_nil, or_false] at hc
      rcases hc with rfl | rfl
      · cases hs; simp [Term.kind]
      · rcases hs.inv with rfl | ⟨c, hc, hs⟩
        · simp [Term.kind, app2]
        · simp only [Term.children, app2, List.mem_cons, List.not_mem_nil, or_false] at hc
          rcases hc with rfl | rfl
          · rcases hs.inv with rfl | ⟨c, hc, hs⟩
            · simp [Term.kind]
            · simp only [Term.children, List.mem_cons, List.not_mem_nil, or_false] at hc
              rcases hc with rfl | rfl <;> (cases hs; simp [Term.kind])
          · cases hs; simp [Term.kind]

end Ethos.Props
