import Verif.Model.Literal
/-
Terms: model of `src/expr.{h,cpp}` (class ExprValue) up to handles.  Handles are identified with the
terms they denote; that this is sound is the subject of `Verif.Props.HashCons` (C19, C20).
-/
namespace Ethos
open Kind

/-- `ExprValue` (expr.h:39-118).  Symbols (`Literal` objects holding a name, state.cpp:604-627) are
always fresh and identified by a number; literals carry their value; every other term is a kind with
children (state.cpp:1234-1249). -/
inductive Term where
  | sym (k : Kind) (id : Nat)
  | lit (l : Lit)
  | node (k : Kind) (cs : List Term)
deriving Repr, Inhabited

namespace Term

/-- `ExprValue::getKind`, expr.cpp:42. -/
def kind : Term → Kind
  | sym k _ => k
  | lit l => l.kind
  | node k _ => k

/-- `ExprValue::getChildren`, expr.cpp:44. -/
def children : Term → List Term
  | node _ cs => cs
  | _ => []

mutual
/-- structural equality; with hash-consing this is pointer equality (`Expr::operator==`, expr.cpp:507). -/
def beq : Term → Term → Bool
  | sym k i, sym k' i' => decide (k = k') && decide (i = i')
  | lit l, lit l' => decide (l = l')
  | node k cs, node k' cs' => decide (k = k') && beqs cs cs'
  | _, _ => false
def beqs : List Term → List Term → Bool
  | [], [] => true
  | c :: cs, c' :: cs' => beq c c' && beqs cs cs'
  | _, _ => false
end

mutual
theorem beq_iff : ∀ (a b : Term), beq a b = true ↔ a = b
  | sym k i, sym k' i' => by simp [beq]
  | lit l, lit l' => by simp [beq]
  | node k cs, node k' cs' => by simp [beq, beqs_iff cs cs']
  | sym _ _, lit _ => by simp [beq]
  | sym _ _, node _ _ => by simp [beq]
  | lit _, sym _ _ => by simp [beq]
  | lit _, node _ _ => by simp [beq]
  | node _ _, sym _ _ => by simp [beq]
  | node _ _, lit _ => by simp [beq]
theorem beqs_iff : ∀ (a b : List Term), beqs a b = true ↔ a = b
  | [], [] => by simp [beqs]
  | c :: cs, c' :: cs' => by simp [beqs, beq_iff c c', beqs_iff cs cs']
  | [], _ :: _ => by simp [beqs]
  | _ :: _, [] => by simp [beqs]
end

instance : DecidableEq Term := fun a b =>
  if h : beq a b = true then isTrue ((beq_iff a b).mp h)
  else isFalse (fun e => h ((beq_iff a b).mpr e))

/-- induction principle: a property holds of a term if it holds whenever it holds of the children -/
theorem induct {P : Term → Prop} (hsym : ∀ k i, P (sym k i)) (hlit : ∀ l, P (lit l))
    (hnode : ∀ k cs, (∀ c ∈ cs, P c) → P (node k cs)) : ∀ t, P t :=
  fun t => Term.rec (motive_1 := P) (motive_2 := fun cs => ∀ c ∈ cs, P c)
    hsym hlit hnode (by simp)
    (fun h t ph pt c hc => by
      rcases List.mem_cons.mp hc with rfl | hc
      · exact ph
      · exact pt c hc) t

mutual
/-- number of nodes -/
def size : Term → Nat
  | sym _ _ => 1
  | lit _ => 1
  | node _ cs => 1 + sizes cs
def sizes : List Term → Nat
  | [] => 0
  | c :: cs => size c + sizes cs
end

/-- leaf flag of `computeFlags`, expr.cpp:69-70 -/
def leafNonGround (k : Kind) : Bool := k == PARAM || k == ANY
/-- leaf flag of `computeFlags`, expr.cpp:68 -/
def leafEval (k : Kind) : Bool := k == PROGRAM_CONST || k == ANY

mutual
/-- value of `isGround` (expr.cpp:110-114).  That the stack-based flag computation with caching
(`computeFlags`) yields this value is theorem C21. -/
def ground : Term → Bool
  | sym k _ => !leafNonGround k
  | lit l => !leafNonGround l.kind
  | node k [] => !leafNonGround k
  | node _ (c :: cs) => ground c && grounds cs
def grounds : List Term → Bool
  | [] => true
  | c :: cs => ground c && grounds cs
end

mutual
/-- value of `isEvaluatable` (expr.cpp:104-108); see C21. -/
def evaluatable : Term → Bool
  | sym k _ => leafEval k
  | lit l => leafEval l.kind
  | node k [] => leafEval k
  | node k (c :: cs) => isLiteralOp k || evaluatable c || evaluatables cs
def evaluatables : List Term → Bool
  | [] => false
  | c :: cs => evaluatable c || evaluatables cs
end

end Term

/-- `Ctx`, type_checker.h: a map from parameters to terms (`std::map`; `emplace` on absent keys only). -/
abbrev Ctx := List (Term × Term)

namespace Ctx
/-- `ctx.find(p)` -/
def find (c : Ctx) (p : Term) : Option Term := (c.lookup p)
end Ctx

end Ethos
