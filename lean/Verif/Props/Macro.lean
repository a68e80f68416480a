import Verif.Props.Desugar
/-
C56: applications of macros and programs are evaluated when they are built, and the remaining forms of application (C23, C52).
-/
namespace Ethos.Props
open Ethos Kind Spec

variable {env : Env}

/-! ### C56 -/

theorem find_zip_reverse : ∀ (vs args : List Term), vs.Nodup → vs.length = args.length → ∀ (x a : Term),
    Ctx.find (vs.zip args).reverse x = some a ↔ (x, a) ∈ vs.zip args := by
  intro vs args hn hl x a
  rw [← List.mem_reverse]
  generalize hr : (vs.zip args).reverse = r
  have hd : (r.map Prod.fst).Nodup := by
    rw [← hr, List.map_reverse, List.map_fst_zip (by omega)]
    exact (List.reverse_perm vs).nodup_iff.mpr hn
  clear hr
  induction r with
  | nil => simp [Ctx.find]
  | cons p r ih =>
    obtain ⟨y, b⟩ := p
    simp only [List.map_cons, List.nodup_cons] at hd
    rw [find_cons]
    simp only [List.mem_cons, Prod.mk.injEq]
    split
    · rename_i h
      subst h
      constructor
      · intro h; injection h with h; exact .inl ⟨rfl, h.symm⟩
      · rintro (⟨_, rfl⟩ | h)
        · rfl
        · exact absurd (List.mem_map_of_mem (f := Prod.fst) h) hd.1
    · rename_i h
      refine (ih hd.2).trans ?_
      constructor
      · exact .inr
      · rintro (⟨rfl, _⟩ | h')
        · exact absurd rfl h
        · exact h'

/-- **C56**.  The application of a macro (a symbol defined with parameters `v1 … vn`) to `n` arguments denotes the value of
its body where the parameters are bound to the arguments. -/
theorem C56_macro {body : Term} {vs args : List Term} {ctx : Ctx} (t : Term) (hi : env.appInfo (.node LAMBDA [.node TUPLE vs, body]) = none)
    (hd : vs.Nodup) (hl : vs.length = args.length) (hc : ∀ v a, ctx.find v = some a ↔ (v, a) ∈ vs.zip args) :
    Denotes env (.node LAMBDA [.node TUPLE vs, body]) args t ↔ EvaluatesTo env ctx body t := by
  have he : ∀ p, ctx.find p = Ctx.find (vs.zip args).reverse p := by
    intro p
    apply Option.ext
    intro a
    exact (hc p a).trans (find_zip_reverse vs args hd hl p a).symm
  rw [denotes_app]
  have h0 : (∃ n, mkApp env (ops env n) (mkExpr env (ops env n) n) (.node LAMBDA [.node TUPLE vs, body]) args = .ok t) ↔
      EvaluatesTo env (vs.zip args).reverse body t := by
    simp [mkApp, hi, mkPlainApp, Term.kind, Term.children, argO, hl, EvaluatesTo, Out.bind]
  rw [h0]
  exact ⟨fun h => evaluatesTo_congr h fun p => (he p).symm, fun h => evaluatesTo_congr h he⟩

/-- with another number of arguments it is left as it is -/
theorem C56_macro_arity {body t : Term} {vs args : List Term} (hi : env.appInfo (.node LAMBDA [.node TUPLE vs, body]) = none)
    (hne : args ≠ []) (hl : vs.length ≠ args.length) :
    Denotes env (.node LAMBDA [.node TUPLE vs, body]) args t ↔ Curry (.node LAMBDA [.node TUPLE vs, body]) args t := by
  rw [denotes_app, curry_iff]
  simp [mkApp, hi, mkPlainApp, Term.kind, Term.children, argO, hl, Out.bind, mkApply_eq hne, eq_comm]

/-- `p` is a program whose definition has been read, of type `(-> T1 … Tn T)` -/
structure Program (env : Env) (p : Term) (n : Nat) : Prop where
  kind : p.kind = PROGRAM_CONST
  info : ∃ prog, HasAttr env p .PROGRAM (some prog) ∧ prog.kind = PROGRAM
  type : ∃ T, TypeResult env p (some T) ∧ T.children.length = n + 1

theorem program_app {p : Term} {args : List Term} {n : Nat} (hp : Program env p n) (o : Ops) (mk : Kind → List Term → Out Term) :
    mkApp env o mk p args = mkPlainApp env o p args := by
  obtain ⟨_, ⟨prog, h1, h2⟩, _⟩ := hp
  have h1 : env.appInfo p = _ := h1
  simp [mkApp, h1, Out.bind, consTerm, h2, mkApplyAttr, isAssocAttr]

/-- **C56**.  The application of a program to the expected number of arguments denotes the value of the selected case. -/
theorem C56_program {p body : Term} {args : List Term} {ctx : Ctx} (t : Term) (hp : Program env p args.length)
    (hr : ProgResult env (p :: args) (some (body, ctx))) : Denotes env p args t ↔ EvaluatesTo env ctx body t := by
  have hk := hp.kind
  obtain ⟨prog, h1, _⟩ := hp.info
  have h1 : env.appInfo p = _ := h1
  obtain ⟨T, ⟨m, hT⟩, hl⟩ := hp.type
  rw [denotes_app]
  simp only [program_app hp]
  have e : ∀ n, m ≤ n → mkPlainApp env (ops env n) p args = (ops env n).evaluate body ctx := by
    intro n hn
    have hT' := ((ops_mono env hn).getType p).ok hT
    unfold mkPlainApp
    simp only [hk, reduceCtorEq, if_false, if_true, Env.constructorKind, h1, ne_eq, not_false_eq_true, hT', Out.bind, hl]
    rw [show evalProgram env (p :: args) = _ from hr]
  constructor
  · rintro ⟨n, hn⟩
    refine ⟨max m n, ?_⟩
    rw [← e _ (Nat.le_max_left _ _)]
    exact (mkPlainApp_mono (ops_mono env (Nat.le_max_right m n)) p args).ok hn
  · rintro ⟨n, hn⟩
    refine ⟨max m n, ?_⟩
    rw [e _ (Nat.le_max_left _ _)]
    exact ((ops_mono env (Nat.le_max_right m n)).evaluate body ctx).ok hn

/-- if no case matches, it is left as it is -/
theorem C56_program_stuck {p : Term} {args : List Term} (t : Term) (hp : Program env p args.length)
    (hr : ProgResult env (p :: args) none) : Denotes env p args t ↔ t = .node APPLY (p :: args) := by
  have hk := hp.kind
  obtain ⟨prog, h1, _⟩ := hp.info
  have h1 : env.appInfo p = _ := h1
  obtain ⟨T, ⟨m, hT⟩, hl⟩ := hp.type
  have h3 : Denotes env p args (.node APPLY (p :: args)) := by
    rw [denotes_app]
    refine ⟨m, ?_⟩
    rw [program_app hp]
    unfold mkPlainApp
    simp only [hk, reduceCtorEq, if_false, if_true, Env.constructorKind, h1, ne_eq, not_false_eq_true, hT, Out.bind, hl]
    rw [show evalProgram env (p :: args) = _ from hr]
    simp
  exact ⟨fun h => C23_unique h h3, fun h => h ▸ h3⟩

/-- a program applied before its definition is read (in the cases of its own definition) is left as it is -/
theorem C56_program_undefined {p : Term} {args : List Term} (t : Term) (hk : p.kind = PROGRAM_CONST) (hi : env.appInfo p = none) :
    Denotes env p args t ↔ t = .node APPLY (p :: args) := by
  rw [denotes_app]
  simp [mkApp, hi, mkPlainApp, hk, Env.constructorKind, eq_comm]

/-! ### C23, C52: other forms -/

/-- the application of a proof rule is not curried -/
theorem C52_rule {r : Term} {args : List Term} (t : Term) (hk : r.kind = PROOF_RULE) (hi : env.appInfo r = none) :
    Denotes env r args t ↔ t = .node APPLY (r :: args) := by
  rw [denotes_app]
  simp [mkApp, hi, mkPlainApp, hk, eq_comm]

/-- an associative operator applied to nothing is its nil terminator -/
theorem C23_nothing {f nil : Term} {a : Attr} (ha : HasAttr env f a (some nil)) (h : isAssocAttr a = true) (hk : nil.kind ≠ PARAMETERIZED) (t : Term) :
    Denotes env f [] t ↔ t = nil := by
  rw [denotes_app]
  have : env.appInfo f = _ := ha
  simp [mkApp, this, consTerm, hk, Out.bind, mkApplyAttr, h, mkAssoc, eq_comm]

/-- `f` applied to opaque arguments one after the other -/
inductive OpaqueCurry (f : Term) : List Term → Term → Prop
  | nil : OpaqueCurry f [] f
  | snoc (ts t u) : OpaqueCurry f ts u → OpaqueCurry f (ts ++ [t]) (.node APPLY_OPAQUE [u, t])

theorem opaqueCurry_foldl (f : Term) (ts : List Term) : OpaqueCurry f ts (ts.foldl (fun curr a => Term.node APPLY_OPAQUE [curr, a]) f) := by
  suffices ∀ r : List Term, OpaqueCurry f r.reverse (r.reverse.foldl (fun curr a => Term.node APPLY_OPAQUE [curr, a]) f) by
    simpa using this ts.reverse
  intro r
  induction r with
  | nil => exact .nil
  | cons t r ih =>
    rw [List.reverse_cons, List.foldl_append]
    exact .snoc _ _ _ ih

/-- `(f t1 … tn u1 … um)` for an operator declared with `n` opaque arguments: the first `n` arguments are opaque, the
others are applied as usual -/
theorem C23_opaque {f op t : Term} {os args : List Term} (ha : HasAttr env f .OPAQUE (some (.lit (.num os.length)))) (hb : os.length < 2 ^ 32)
    (ho : OpaqueCurry f os op) (hc : Curry op args t) : Denotes env f (os ++ args) t := by
  have hop : op = os.foldl (fun curr a => Term.node APPLY_OPAQUE [curr, a]) f := by
    have det : ∀ {ts u}, OpaqueCurry f ts u → u = ts.foldl (fun curr a => Term.node APPLY_OPAQUE [curr, a]) f := by
      intro ts u h
      induction h with
      | nil => rfl
      | snoc ts t u _ ih => rw [List.foldl_append, ← ih]; rfl
    exact det ho
  have hu : Integer.toUnsignedInt (os.length : Int) = os.length := by
    simp only [Integer.toUnsignedInt]
    omega
  have : env.appInfo f = _ := ha
  rw [denotes_app]
  refine ⟨0, ?_⟩
  simp only [mkApp, this, ne_eq, not_true_eq_false, if_false, Out.bind, consTerm, Term.kind, Lit.kind, reduceCtorEq, not_false_eq_true, if_true,
    mkApplyAttr, isAssocAttr, Bool.false_eq_true, mkOpaque, hu, List.length_append]
  rw [if_neg (by omega)]
  rw [curry_iff] at hc
  by_cases he : args = []
  · subst he
    simp only [List.length_nil, Nat.add_zero, if_true, List.append_nil, List.take_length]
    rw [hc, hop]
    rfl
  · have : 0 < args.length := List.length_pos_iff.mpr he
    rw [if_neg (by omega)]
    simp only [List.take_left, List.drop_left]
    rw [mkApply_eq he, ← hop, hc]

/-- the list of terms `(eo::List::cons t1 … tn)` -/
theorem C23_list (hc : HasAttr env env.listCons .RIGHT_ASSOC_NIL (some env.listNil)) (hk : env.listNil.kind ≠ PARAMETERIZED)
    (args : List Term) (hl : ∀ t ∈ args, ¬ IsListParam env t) :
    ∃ n, mkList env (mkExpr env (ops env n) n) args = .ok (rlist env.listCons env.listNil args) := by
  cases args with
  | nil => exact ⟨0, rfl⟩
  | cons t ts => exact C24_list hc (.known _ (.const _ hk)) hl

/-! ### Examples -/

def xM : Term := .sym PARAM 60
def fOpq : Term := .sym CONST 61
def exMacEnv : Env := { exSugEnv with
  appInfo := fun t => if t = fOpq then some ⟨.OPAQUE, some (.lit (.num 1)), NONE, none⟩ else exSugEnv.appInfo t }

/-- `(define succ ((x Int)) (eo::add x 1))` and `(succ 2)` -/
example : Denotes exMacEnv (.node LAMBDA [.node TUPLE [xM], .node EVAL_ADD [xM, .lit (.num 1)]]) [.lit (.num 2)] (.lit (.num 3)) := by
  refine (C56_macro (env := exMacEnv) (vs := [xM]) (args := [.lit (.num 2)]) (body := .node EVAL_ADD [xM, .lit (.num 1)])
    (ctx := [(xM, .lit (.num 2))]) _ rfl (by simp) rfl ?_).mpr ⟨20, rfl⟩
  intro v a
  simp only [find_cons, List.zip_cons_cons, List.zip_nil_right, List.mem_singleton, Prod.mk.injEq]
  split
  · rename_i h; subst h; simp [eq_comm]
  · rename_i h; simp [Ctx.find]; intro h'; exact absurd h' h

/-- the program `p` of `exEnv`, which has type `(-> T T)` -/
def exProgEnv : Env := { exEnv with symType := fun t => if t = sP then some (.node PROGRAM_TYPE [tType, tType]) else none }

theorem exProgram : Program exProgEnv sP 1 := ⟨rfl, ⟨exProg, rfl, rfl⟩, .node PROGRAM_TYPE [tType, tType], ⟨1, rfl⟩, rfl⟩

example : Denotes exProgEnv sP [fapp sA sB] (fapp sB sA) :=
  (C56_program (env := exProgEnv) (p := sP) (args := [fapp sA sB]) (body := fapp sY sX) (ctx := [(sX, sA), (sY, sB)]) _ exProgram rfl).mpr ⟨20, rfl⟩

example : Denotes exProgEnv sP [sX] (.node APPLY [sP, sX]) := (C56_program_stuck (env := exProgEnv) (p := sP) (args := [sX]) _ exProgram rfl).mpr rfl

example : Denotes exMacEnv fOpq [tA, tB] (.node APPLY [.node APPLY_OPAQUE [fOpq, tA], tB]) :=
  C23_opaque (os := [tA]) (args := [tB]) rfl (by decide) (.snoc [] _ _ .nil) (.snoc [] _ _ .nil)

example : Denotes exSugEnv fOr [] tNil := 
  (C23_nothing (env := exSugEnv) (f := fOr) (nil := tNil) (a := .RIGHT_ASSOC_NIL) rfl rfl (by decide) _).mpr rfl

end Ethos.Props
