import Verif.Model.Store
/-
What the term store is supposed to guarantee: handles denote terms; histories of client operations.
-/
namespace Ethos.Store
open Ethos

/-- the handle `p` is alive and denotes the term `t` -/
inductive Denotes (s : St) : Nat → Term → Prop
  | app (p : Nat) (k : Kind) (cs : List Nat) (ts : List Term) :
      s.heap.lookup p = some (.app k cs) → cs.length = ts.length →
      (∀ (i : Nat) (c : Nat) (t : Term), cs[i]? = some c → ts[i]? = some t → Denotes s c t) → Denotes s p (.node k ts)
  | lit (p : Nat) (l : Lit) : s.heap.lookup p = some (.lit l) → Denotes s p (.lit l)
  | sym (p : Nat) (k : Kind) (i : Nat) : s.heap.lookup p = some (.sym k i) → Denotes s p (.sym k i)

/-- a history of client operations with the values they returned, without undefined behaviour; `P` holds in every
state on the way -/
inductive RunIn (P : St → Prop) : St → List (Op × Nat) → St → Prop
  | nil (s : St) : P s → RunIn P s [] s
  | cons (s s1 s2 : St) (o : Op) (r : Nat) (h : List (Op × Nat)) : P s → s.allowed o = true → s.step o = some (s1, r) →
      RunIn P s1 h s2 → RunIn P s ((o, r) :: h) s2

/-- a history of client operations -/
abbrev Run := RunIn (fun _ => True)

/-- the initial state -/
def St.init : St := {}

/-- no term is built whose list of children is a proper prefix of that of another term of the same kind -/
def PrefixFree (h : List (Op × Nat)) : Prop :=
  ∀ k cs cs' a a' r r', (Op.app k cs a, r) ∈ h → (Op.app k cs' a', r') ∈ h → cs <+: cs' → cs = cs'

/-- no handle is given up -/
def NoRelease (h : List (Op × Nat)) : Prop := ∀ p r, (Op.release p, r) ∉ h

/-- the operations that give the client a handle to what they return -/
def Op.acquires : Op → Bool
  | .app _ _ _ | .lit _ _ | .sym _ _ | .retain _ => true
  | _ => false

/-- how often the history gave the client a handle to `p`, and how often the client gave one up -/
def acquired (h : List (Op × Nat)) (p : Nat) : Nat := (h.filter (fun x => x.1.acquires && decide (x.2 = p))).length
def Op.releases (p : Nat) : Op → Bool
  | .release q => decide (q = p)
  | _ => false
def released (h : List (Op × Nat)) (p : Nat) : Nat := (h.filter (fun x => x.1.releases p)).length

end Ethos.Store
