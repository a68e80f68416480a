import Verif.Spec.Elab
import Verif.Lemmas.Scope
import Verif.Lemmas.Command
import Verif.Lemmas.Desugar
import Verif.Lemmas.EvalOps
/-
The parser of expressions computes the terms they denote.
-/
namespace Ethos.Props
open Ethos Kind Ethos.Spec

/-- what is visible when the table holds the stack `a` -/
def visOf (a : Stack) (st : State) : Vis := ⟨a.all, st.scope.mark⟩

/-- `st` is `st0` with a table that holds the stack `a` -/
structure On (st0 : State) (a : Stack) (st : State) : Prop where
  same : st = { st0 with scope := st.scope }
  table : Refines st.scope a

/-- a stack with one more scope -/
def up (x : List Binding) (a : Stack) : Stack := ⟨x :: a.scopes, a.globals⟩

theorem all_bind (a : Stack) (x : Name) (t : Term) : (a.bind x t).all = (x, t) :: a.all := by
  obtain ⟨sc, g⟩ := a
  cases sc <;> simp [Stack.bind, Stack.all]

theorem up_bind (l : List Binding) (a : Stack) (x : Name) (t : Term) : (up l a).bind x t = up ((x, t) :: l) a := rfl

namespace On
variable {b : Env} {n : Nat} {st0 : State} {a : Stack} {st : State}

theorem find (h : On st0 a st) (x : Name) : st.scope.get x = (visOf a st).find x := h.table.holds.sym x

theorem env (h : On st0 a st) : st.env b = envAt b st0 (visOf a st) := by
  have : st.scope.ov = fun x => if 2 ≤ ((visOf a st).all x).length then (visOf a st).all x else [] := funext h.table.holds.ov
  rw [h.same] at this ⊢
  simp only [State.env, envAt, visOf] at this ⊢
  rw [this]

theorem bind (h : On st0 a st) (x : Name) (t : Term) : On st0 (a.bind x t) (st.bind x t) ∧ visOf (a.bind x t) (st.bind x t) = (visOf a st).add (x, t) := by
  refine ⟨⟨?_, refines_bind h.table x t⟩, ?_⟩
  · rw [h.same]; rfl
  · have h1 := h.find x
    simp only [Scope.get] at h1
    simp only [visOf, all_bind, Vis.add, State.bind, Scope.bind, Vis.mk.injEq, true_and]
    rw [show st.scope.sym x = (visOf a st).find x from h1]
    show _ = if ((visOf a st).find x).isSome = true then _ else _
    cases (visOf a st).find x <;> simp

theorem bindAll (l : List (Name × Term)) : ∀ {y : List Binding} {st : State}, On st0 (up y a) st →
    ∃ z, On st0 (up z a) (st.bindAll l) ∧ visOf (up z a) (st.bindAll l) = (visOf (up y a) st).addAll l := by
  induction l with
  | nil => exact fun h => ⟨_, h, rfl⟩
  | cons p l ih =>
    intro y st h
    obtain ⟨h1, h2⟩ := h.bind p.1 p.2
    rw [up_bind] at h1 h2
    obtain ⟨z, h3, h4⟩ := ih h1
    refine ⟨z, h3, ?_⟩
    rw [h2] at h4
    exact h4

theorem push (h : On st0 a st) : On st0 (up [] a) st.push ∧ visOf (up [] a) st.push = visOf a st :=
  ⟨⟨by rw [h.same]; rfl, refines_push h.table⟩, by simp [visOf, up, Stack.all, State.push, Scope.push]⟩

theorem pop {x : List Binding} (h : On st0 (up x a) st) : ∃ st', st.pop = .ok st' ∧ On st0 a st' ∧ ∀ w, (visOf a w).leave (visOf (up x a) st) = visOf a st' := by
  obtain ⟨s', h1, h2, h3⟩ := refines_pop h.table
  refine ⟨{ st with scope := s' }, by simp [State.pop, h1, Run.map], ⟨?_, h2⟩, ?_⟩
  · rw [h.same]
  · intro w; simp [visOf, Vis.leave, h3]

theorem popped {x : List Binding} {st' : State} (h : On st0 (up x a) st) (hp : st.pop = .ok st') :
    On st0 a st' ∧ ∀ w, (visOf a w).leave (visOf (up x a) st) = visOf a st' := by
  obtain ⟨s, h1, h2⟩ := h.pop
  rw [h1] at hp
  cases hp
  exact h2

theorem build (h : On st0 a st) {k : Kind} {cs : List Term} {t : Term} (hb : st.build b n k cs = .ok t) : Builds (envAt b st0 (visOf a st)) k cs t := by
  rw [← h.env]
  exact ⟨n, Run.lift_ok.1 hb⟩

theorem typeCheck (h : On st0 a st) {e t : Term} (hb : st.typeCheck b n e = .ok t) : TypeResult (envAt b st0 (visOf a st)) e (some t) := by
  rw [← h.env]
  simp only [State.typeCheck, Run.bind_ok, Run.lift_ok, Run.orErr_ok] at hb
  obtain ⟨r, h1, rfl⟩ := hb
  exact ⟨n, h1⟩

theorem typeCheckAs (h : On st0 a st) {e t : Term} {u : Unit} (hb : st.typeCheckAs b n e t = .ok u) : TypeResult (envAt b st0 (visOf a st)) e (some t) := by
  simp only [State.typeCheckAs, Run.bind_ok, Run.guard_ok, decide_eq_true_eq] at hb
  obtain ⟨_, h1, rfl⟩ := hb
  exact h.typeCheck h1

theorem getBoundVar (h : On st0 a st) {x : Name} {ty v : Term} (hb : st.getBoundVar b n x ty = .ok v) :
    Variable (envAt b st0 (visOf a st)) x ty v := by
  simp only [State.getBoundVar] at hb
  split at hb
  · rename_i hg; cases hb; exact .inl ⟨hg, rfl⟩
  · rename_i hg; exact .inr ⟨by simpa using hg, h.build hb⟩

theorem attrIs {env : Env} {f : Term} {c : Attr} (hc : c ≠ .NONE) : env.constructorKind f = c ↔ AttrIs env f c := by
  simp only [Env.constructorKind, AttrIs]
  cases env.appInfo f with
  | none => simp [Ne.symm hc]
  | some ai => simp

theorem attrArg {env : Env} {f c : Term} : (env.appInfo f).bind (·.cons) = some c ↔ AttrArg env f c := by
  simp only [AttrArg]
  cases env.appInfo f <;> simp

theorem mkPairs (h : On st0 a st) {pc : Term} : ∀ (l : List (Term × Term)) (ts : List Term), st.mkPairs b n pc l = .ok ts →
    LetPairs (envAt b st0 (visOf a st)) pc l ts
  | [], ts, hb => by simp only [State.mkPairs] at hb; cases hb; exact .nil
  | (v, t) :: r, ts, hb => by
    simp only [State.mkPairs, Run.bind_ok, Run.map_ok] at hb
    obtain ⟨p, h1, ps, h2, rfl⟩ := hb
    exact .cons _ _ _ _ _ (h.build h1) (mkPairs h r ps h2)

end On

theorem indexed_iff {e : SExp} : e.indexed = true ↔ Spec.SExp.isIndexed e := by
  cases e <;> simp [SExp.indexed, Spec.SExp.isIndexed]

theorem binderArgs_iff {env : Env} {hd : Term} {args : List SExp} : binderArgs (env.constructorKind hd) args = true ↔
    ((AttrIs env hd .BINDER ∨ AttrIs env hd .LET_BINDER) → ∀ a, args.head? = some a → ¬ Spec.SExp.isQualified a) := by
  rw [← On.attrIs (by decide), ← On.attrIs (by decide)]
  cases args with
  | nil => simp [binderArgs]
  | cons e r =>
    cases e <;> simp [binderArgs, Spec.SExp.isQualified]

section
variable {b : Env} {n : Nat} {st0 : State}

mutual
theorem parseExpr_elab : ∀ (e : SExp) {a : Stack} {st st' : State} {t : Term}, On st0 a st → parseExpr b n e st = .ok (st', t) →
    On st0 a st' ∧ Elab (envAt b st0) (visOf a st) e t (visOf a st')
  | .sym x, a, st, st', t, h, hp => by
    simp only [parseExpr] at hp
    split at hp
    · cases hp
    · rename_i u hu
      simp only [Run.ite_err] at hp
      obtain ⟨h1, h2⟩ := hp
      cases h2
      rw [h.find] at hu
      exact ⟨h, .sym _ _ _ hu h1⟩
  | .lit l, a, st, st', t, h, hp => by simp only [parseExpr] at hp; cases hp; exact ⟨h, .lit _ _⟩
  | .type, a, st, st', t, h, hp => by simp only [parseExpr] at hp; cases hp; exact ⟨h, .type _⟩
  | .bool, a, st, st', t, h, hp => by simp only [parseExpr] at hp; cases hp; exact ⟨h, .bool _⟩
  | .annot e, a, st, st', t, h, hp => by
    simp only [parseExpr] at hp
    obtain ⟨h1, h2⟩ := parseExpr_elab e h hp
    exact ⟨h1, .annot _ _ _ _ h2⟩
  | .app x args, a, st, st', t, h, hp => by
    simp only [parseExpr] at hp
    split at hp
    · cases hp
    · rename_i hd hu
      rw [h.find] at hu
      simp only [Run.ite_err', Run.bind_ok, Run.map_ok] at hp
      obtain ⟨h1, ⟨s1, ts⟩, h2, u, h3, h4⟩ := hp
      cases h4
      obtain ⟨h5, h6⟩ := parseList_elab args h h2
      rw [h.env] at h1
      exact ⟨h5, .app _ _ _ _ _ _ _ hu h6 (h5.build h3) (binderArgs_iff.1 h1)⟩
  | .appq e args, a, st, st', t, h, hp => by
    simp only [parseExpr, Run.ite_err', Run.bind_ok, Run.map_ok] at hp
    obtain ⟨hx, ⟨s1, hd⟩, h1, ⟨s2, ts⟩, h3, u, h4, h5⟩ := hp
    cases h5
    obtain ⟨h6, h7⟩ := parseExpr_elab e h h1
    obtain ⟨h8, h9⟩ := parseList_elab args h6 h3
    exact ⟨h8, .appq _ _ _ _ _ _ _ _ (indexed_iff.1 hx) h7 h9 (h8.build h4)⟩
  | .binder x xs es args, a, st, st', t, h, hp => by
    simp only [parseExpr] at hp
    split at hp
    · cases hp
    · rename_i hd hu
      rw [h.find] at hu
      simp only [Run.ite_err] at hp
      obtain ⟨hx, hp⟩ := hp
      have hx : xs ≠ [] := by simpa using hx
      obtain ⟨g1, g2⟩ := h.push
      split at hp
      · rename_i hk
        rw [h.env, On.attrIs (by decide)] at hk
        simp only [Run.bind_ok, Run.map_ok] at hp
        obtain ⟨⟨s1, vs⟩, h1, vl, h2, ⟨s2, ts⟩, h3, u, h4, s3, h5, h6⟩ := hp
        cases h6
        obtain ⟨y, h7, h8⟩ := parseVars_elab xs es g1 h1
        obtain ⟨h9, h10⟩ := parseList_elab args h7 h3
        obtain ⟨h11, h12⟩ := h9.popped h5
        rw [g2] at h8
        rw [← h12 st]
        simp only [State.mkBinderList] at h2
        split at h2
        · cases h2
        · rename_i c hc
          rw [h7.env, On.attrArg] at hc
          exact ⟨h11, .binder _ _ _ _ _ _ _ _ _ _ _ _ _ hu hx hk h8 hc (h7.build h2) h10 (h9.build h4)⟩
      · simp only [Run.ite_err'] at hp
        obtain ⟨hk, hp⟩ := hp
        rw [h.env, On.attrIs (by decide)] at hk
        simp only [Run.bind_ok, Run.map_ok] at hp
        obtain ⟨⟨s1, ls⟩, h1, vl, h3, ⟨s2, ts⟩, h4, u, h5, s3, h6, h7⟩ := hp
        cases h7
        obtain ⟨h8, h9⟩ := parseLets_elab xs es g1 h1
        obtain ⟨z, k1, k2⟩ := h8.bindAll (ls.map fun l => (l.1, l.2.1))
        obtain ⟨k3, k4⟩ := parseList_elab args k1 h4
        obtain ⟨k5, k6⟩ := k3.popped h6
        rw [g2] at h9
        rw [← k6 st]
        simp only [State.mkLetBinderList] at h3
        split at h3
        · rename_i kk pc lc r hc
          rw [k1.env, On.attrArg, k2] at hc
          simp only [Run.bind_ok] at h3
          obtain ⟨ps, j1, j2⟩ := h3
          have j1 := k1.mkPairs _ _ j1
          have j2 := k1.build j2
          rw [k2] at j1 j2 k4
          exact ⟨k5, .letBinder _ _ _ _ _ _ _ _ _ _ _ _ _ _ _ _ _ hu hx hk h9 hc j1 j2 k4 (k3.build h5)⟩
        · cases h3
  | .letE xs es body, a, st, st', t, h, hp => by
    simp only [parseExpr, Run.bind_ok, Run.map_ok] at hp
    obtain ⟨⟨s1, ds⟩, h1, ⟨s2, u⟩, h2, s3, h3, h4⟩ := hp
    cases h4
    obtain ⟨h5, h6⟩ := parseList_elab es h h1
    obtain ⟨g1, g2⟩ := h5.push
    obtain ⟨z, k1, k2⟩ := g1.bindAll (xs.zip ds)
    obtain ⟨k3, k4⟩ := parseExpr_elab body k1 h2
    obtain ⟨k5, k6⟩ := k3.popped h3
    rw [k2, g2] at k4
    rw [← k6 st]
    exact ⟨k5, .letE _ _ _ _ _ _ _ _ h6 k4⟩
theorem parseList_elab : ∀ (es : List SExp) {a : Stack} {st st' : State} {ts : List Term}, On st0 a st → parseList b n es st = .ok (st', ts) →
    On st0 a st' ∧ Elabs (envAt b st0) (visOf a st) es ts (visOf a st')
  | [], a, st, st', ts, h, hp => by simp only [parseList] at hp; cases hp; exact ⟨h, .nil _⟩
  | e :: es, a, st, st', ts, h, hp => by
    simp only [parseList, Run.bind_ok, Run.map_ok] at hp
    obtain ⟨⟨s1, t⟩, h1, ⟨s2, us⟩, h2, h3⟩ := hp
    cases h3
    obtain ⟨h4, h5⟩ := parseExpr_elab e h h1
    obtain ⟨h6, h7⟩ := parseList_elab es h4 h2
    exact ⟨h6, .cons _ _ _ _ _ _ _ h5 h7⟩
theorem parseVars_elab : ∀ (xs : List Name) (es : List SExp) {a : Stack} {y : List Binding} {st st' : State} {vs : List Term}, On st0 (up y a) st →
    parseVars b n xs es st = .ok (st', vs) → ∃ z, On st0 (up z a) st' ∧ Vars (envAt b st0) (visOf (up y a) st) xs es vs (visOf (up z a) st')
  | x :: xs, e :: es, a, y, st, st', vs, h, hp => by
    simp only [parseVars, Run.bind_ok, Run.map_ok] at hp
    obtain ⟨⟨s1, ty⟩, h1, _, h2, v, h3, ⟨s2, us⟩, h4, h5⟩ := hp
    cases h5
    obtain ⟨h6, h7⟩ := parseExpr_elab e h h1
    obtain ⟨h8, h9⟩ := h6.bind x v
    rw [up_bind] at h8 h9
    obtain ⟨z, h10, h11⟩ := parseVars_elab xs es h8 h4
    rw [h9] at h11
    simp only [State.checkType, Run.bind_ok, Run.guard_ok] at h2
    obtain ⟨_, j1, j2⟩ := h2
    exact ⟨z, h10, .cons _ _ _ _ _ _ _ _ _ _ h7 (h6.typeCheckAs j1) (by simpa using j2) (h6.getBoundVar h3) h11⟩
  | [], es, a, y, st, st', vs, h, hp => by
    simp only [parseVars] at hp; cases hp; exact ⟨y, h, .nil _ _ _ (.inl rfl)⟩
  | _ :: _, [], a, y, st, st', vs, h, hp => by
    simp only [parseVars] at hp; cases hp; exact ⟨y, h, .nil _ _ _ (.inr rfl)⟩
theorem parseLets_elab : ∀ (xs : List Name) (es : List SExp) {a : Stack} {st st' : State} {ls : List (Name × Term × Term)}, On st0 a st →
    parseLets b n xs es st = .ok (st', ls) → On st0 a st' ∧ Lets (envAt b st0) (visOf a st) xs es ls (visOf a st')
  | x :: xs, e :: es, a, st, st', ls, h, hp => by
    simp only [parseLets, Run.bind_ok, Run.map_ok] at hp
    obtain ⟨⟨s1, t⟩, h1, tt, h2, v, h3, ⟨s2, us⟩, h4, h5⟩ := hp
    cases h5
    obtain ⟨h6, h7⟩ := parseExpr_elab e h h1
    obtain ⟨h8, h9⟩ := parseLets_elab xs es h6 h4
    exact ⟨h8, .cons _ _ _ _ _ _ _ _ _ _ _ h7 (h6.typeCheck h2) (h6.getBoundVar h3) h9⟩
  | [], es, a, st, st', ls, h, hp => by
    simp only [parseLets] at hp; cases hp; exact ⟨h, .nil _ _ _ (.inl rfl)⟩
  | _ :: _, [], a, st, st', ls, h, hp => by
    simp only [parseLets] at hp; cases hp; exact ⟨h, .nil _ _ _ (.inr rfl)⟩
end

/-! ### Every expression that denotes a term is read as that term -/

theorem build_later (b : Env) {a : Stack} {st : State} (h : On st0 a st) {k : Kind} {cs : List Term} {t : Term}
    (hb : Builds (envAt b st0 (visOf a st)) k cs t) : ∃ n0, ∀ n, n0 ≤ n → st.build b n k cs = .ok t := by
  rw [← h.env] at hb
  obtain ⟨m, hm⟩ := hb
  exact ⟨m, fun n hn => Run.lift_ok.2 ((mkExpr_mono (ops_mono _ hn) m n hn k cs).ok hm)⟩

theorem typeCheck_later (b : Env) {a : Stack} {st : State} (h : On st0 a st) {e t : Term}
    (hb : TypeResult (envAt b st0 (visOf a st)) e (some t)) : ∃ n0, ∀ n, n0 ≤ n → st.typeCheck b n e = .ok t := by
  rw [← h.env] at hb
  obtain ⟨m, hm⟩ := hb
  refine ⟨m, fun n hn => ?_⟩
  simp [State.typeCheck, ((ops_mono (st.env b) hn).getType e).ok hm, Run.lift, Run.bind, Run.orErr]

theorem getBoundVar_later (b : Env) {a : Stack} {st : State} (h : On st0 a st) {x : Name} {ty v : Term}
    (hb : Variable (envAt b st0 (visOf a st)) x ty v) : ∃ n0, ∀ n, n0 ≤ n → st.getBoundVar b n x ty = .ok v := by
  rcases hb with ⟨hg, rfl⟩ | ⟨hg, hb⟩
  · exact ⟨0, fun n _ => by simp [State.getBoundVar, hg, envAt]⟩
  · obtain ⟨m, hm⟩ := build_later b h hb
    exact ⟨m, fun n hn => by simp [State.getBoundVar, hg, hm n hn]⟩

theorem mkPairs_later (b : Env) {a : Stack} {st : State} (h : On st0 a st) {pc : Term} {l : List (Term × Term)} {ts : List Term}
    (hb : LetPairs (envAt b st0 (visOf a st)) pc l ts) : ∃ n0, ∀ n, n0 ≤ n → st.mkPairs b n pc l = .ok ts := by
  induction hb with
  | nil => exact ⟨0, fun _ _ => rfl⟩
  | cons v t p r ps hd _ ih =>
    obtain ⟨n1, h1⟩ := build_later b h hd
    obtain ⟨n2, h2⟩ := ih
    exact ⟨n1 + n2, fun n hn => by simp [State.mkPairs, h1 n (by omega), h2 n (by omega), Run.bind, Run.map]⟩

theorem bind_ok_eq {α β : Type} {r : Run α} {x : α} {f : α → Run β} (h : r = .ok x) : r.bind f = f x := by rw [h]; rfl
theorem map_ok_eq {α β : Type} {r : Run α} {x : α} {f : α → β} (h : r = .ok x) : r.map f = .ok (f x) := by rw [h]; rfl

mutual
theorem elab_parseExpr : ∀ (e : SExp) {a : Stack} {st : State} {t : Term} {v v' : Vis}, On st0 a st → v = visOf a st →
    Elab (envAt b st0) v e t v' →
    ∃ n0 st', On st0 a st' ∧ v' = visOf a st' ∧ ∀ n, n0 ≤ n → parseExpr b n e st = .ok (st', t)
  | .sym x, a, st, t, v, v', h, hv, he => by
    cases he with
    | sym _ _ _ hf hk =>
      subst hv
      rw [← h.find] at hf
      exact ⟨0, st, h, rfl, fun n _ => by simp [parseExpr, hf, hk]⟩
  | .lit l, a, st, t, v, v', h, hv, he => by
    cases he; exact ⟨0, st, h, hv, fun n _ => by simp [parseExpr]⟩
  | .type, a, st, t, v, v', h, hv, he => by
    cases he; exact ⟨0, st, h, hv, fun n _ => by simp [parseExpr]⟩
  | .bool, a, st, t, v, v', h, hv, he => by
    cases he; exact ⟨0, st, h, hv, fun n _ => by simp [parseExpr]⟩
  | .annot e, a, st, t, v, v', h, hv, he => by
    cases he with
    | annot _ _ _ _ he =>
      obtain ⟨n0, st', h1, h2, h3⟩ := elab_parseExpr e h hv he
      exact ⟨n0, st', h1, h2, fun n hn => by simp only [parseExpr]; exact h3 n hn⟩
  | .app x args, a, st, t, v, v', h, hv, he => by
    cases he with
    | app _ _ hd _ ts _ _ hf hl hd' hq =>
      subst hv
      obtain ⟨n1, s1, h1, rfl, h3⟩ := elab_parseList args h rfl hl
      obtain ⟨n2, h4⟩ := build_later b h1 hd'
      rw [← h.find] at hf
      rw [← binderArgs_iff, ← h.env] at hq
      refine ⟨n1 + n2, s1, h1, rfl, fun n hn => ?_⟩
      simp only [parseExpr, hf]
      rw [if_pos hq, bind_ok_eq (h3 n (by omega)), map_ok_eq (h4 n (by omega))]
  | .appq e args, a, st, t, v, v', h, hv, he => by
    cases he with
    | appq _ _ hd v1 _ ts _ _ hx hl hl2 hd2 =>
      subst hv
      obtain ⟨n1, s1, h1, rfl, h3⟩ := elab_parseExpr e h rfl hl
      obtain ⟨n3, s2, h5, rfl, h6⟩ := elab_parseList args h1 rfl hl2
      obtain ⟨n4, h7⟩ := build_later b h5 hd2
      refine ⟨n1 + n3 + n4, s2, h5, rfl, fun n hn => ?_⟩
      simp only [parseExpr]
      rw [if_pos (indexed_iff.2 hx), bind_ok_eq (h3 n (by omega)), bind_ok_eq (h6 n (by omega)), map_ok_eq (h7 n (by omega))]
  | .binder x xs es args, a, st, t, v, v', h, hv, he => by
    obtain ⟨g1, g2⟩ := h.push
    cases he with
    | binder _ _ hd _ _ vs v1 c vl _ ts v2 _ hf hx hk hvs hc hvl hl ht =>
      subst hv
      obtain ⟨n1, y, s1, h1, rfl, h3⟩ := elab_parseVars xs es g1 g2.symm hvs
      obtain ⟨n2, h4⟩ := build_later b h1 hvl
      obtain ⟨n3, s2, h5, rfl, h6⟩ := elab_parseList args h1 rfl hl
      obtain ⟨n4, h7⟩ := build_later b h5 ht
      obtain ⟨s3, h8, h9, h10⟩ := h5.pop
      rw [← h.find] at hf
      rw [← On.attrIs (by decide), ← h.env] at hk
      rw [← On.attrArg, ← h1.env] at hc
      refine ⟨n1 + n2 + n3 + n4, s3, h9, h10 st, fun n hn => ?_⟩
      simp only [parseExpr, hf]
      rw [if_neg (by simpa using hx), if_pos hk, bind_ok_eq (h3 n (by omega))]
      simp only [State.mkBinderList, hc]
      rw [bind_ok_eq (h4 n (by omega)), bind_ok_eq (h6 n (by omega)), bind_ok_eq (h7 n (by omega)), map_ok_eq h8]
    | letBinder _ _ hd _ _ v1 vs k pair list r ps vl _ ts v2 _ hf hx hk hes hc hps hvl hl ht =>
      subst hv
      obtain ⟨n1, s1, h1, rfl, h3⟩ := elab_parseLets xs es g1 g2.symm hes
      obtain ⟨z, k1, k2⟩ := h1.bindAll (vs.map fun p => (p.1, p.2.1))
      rw [← k2] at hc hps hvl hl
      obtain ⟨n3, h5⟩ := mkPairs_later b k1 hps
      obtain ⟨n4, h6⟩ := build_later b k1 hvl
      obtain ⟨n5, s2, h7, rfl, h8⟩ := elab_parseList args k1 rfl hl
      obtain ⟨n6, h9⟩ := build_later b h7 ht
      obtain ⟨s3, h10, h11, h12⟩ := h7.pop
      rw [← h.find] at hf
      rw [← On.attrIs (by decide), ← h.env] at hk
      rw [← On.attrArg, ← k1.env] at hc
      refine ⟨n1 + n3 + n4 + n5 + n6, s3, h11, h12 st, fun n hn => ?_⟩
      simp only [parseExpr, hf]
      rw [if_neg (by simpa using hx), if_neg (by rw [hk]; decide), if_pos hk, bind_ok_eq (h3 n (by omega))]
      simp only [State.mkLetBinderList, hc]
      rw [bind_ok_eq (h5 n (by omega)), bind_ok_eq (h6 n (by omega)), bind_ok_eq (h8 n (by omega)), bind_ok_eq (h9 n (by omega)), map_ok_eq h10]
  | .letE xs es body, a, st, t, v, v', h, hv, he => by
    cases he with
    | letE _ _ _ ds v1 _ _ v2 hes hb =>
      subst hv
      obtain ⟨n1, s1, h1, rfl, h3⟩ := elab_parseList es h rfl hes
      obtain ⟨g1, g2⟩ := h1.push
      obtain ⟨z, k1, k2⟩ := g1.bindAll (xs.zip ds)
      rw [← g2, ← k2] at hb
      obtain ⟨n2, s2, h4, rfl, h5⟩ := elab_parseExpr body k1 rfl hb
      obtain ⟨s3, h6, h7, h8⟩ := h4.pop
      refine ⟨n1 + n2, s3, h7, h8 st, fun n hn => ?_⟩
      simp only [parseExpr]
      rw [bind_ok_eq (h3 n (by omega)), bind_ok_eq (h5 n (by omega)), map_ok_eq h6]
theorem elab_parseList : ∀ (es : List SExp) {a : Stack} {st : State} {ts : List Term} {v v' : Vis}, On st0 a st → v = visOf a st →
    Elabs (envAt b st0) v es ts v' →
    ∃ n0 st', On st0 a st' ∧ v' = visOf a st' ∧ ∀ n, n0 ≤ n → parseList b n es st = .ok (st', ts)
  | [], a, st, ts, v, v', h, hv, he => by
    cases he; exact ⟨0, st, h, hv, fun n _ => by simp [parseList]⟩
  | e :: es, a, st, ts, v, v', h, hv, he => by
    cases he with
    | cons _ _ t v1 _ ts _ h1 h2 =>
      obtain ⟨n1, s1, h3, h4, h5⟩ := elab_parseExpr e h hv h1
      obtain ⟨n2, s2, h6, h7, h8⟩ := elab_parseList es h3 h4 h2
      refine ⟨n1 + n2, s2, h6, h7, fun n hn => ?_⟩
      simp only [parseList]
      rw [bind_ok_eq (h5 n (by omega)), map_ok_eq (h8 n (by omega))]
theorem elab_parseVars : ∀ (xs : List Name) (es : List SExp) {a : Stack} {y : List Binding} {st : State} {vs : List Term} {v v' : Vis},
    On st0 (up y a) st → v = visOf (up y a) st → Vars (envAt b st0) v xs es vs v' →
    ∃ n0 z st', On st0 (up z a) st' ∧ v' = visOf (up z a) st' ∧ ∀ n, n0 ≤ n → parseVars b n xs es st = .ok (st', vs)
  | [], es, a, y, st, vs, v, v', h, hv, he => by
    cases he; exact ⟨0, y, st, h, hv, fun n _ => by simp [parseVars]⟩
  | x :: xs, [], a, y, st, vs, v, v', h, hv, he => by
    cases he; exact ⟨0, y, st, h, hv, fun n _ => by simp [parseVars]⟩
  | x :: xs, e :: es, a, y, st, vs, v, v', h, hv, he => by
    cases he with
    | nil _ _ _ h => simp at h
    | cons _ _ _ _ _ ty v1 u us v2 h1 h2 h3 h4 h5 =>
      obtain ⟨n1, s1, k1, rfl, k3⟩ := elab_parseExpr e h hv h1
      obtain ⟨n2, k4⟩ := typeCheck_later b k1 h2
      obtain ⟨n3, k5⟩ := getBoundVar_later b k1 h4
      obtain ⟨k6, k7⟩ := k1.bind x u
      rw [up_bind] at k6 k7
      obtain ⟨n4, z, s2, k8, k9, k10⟩ := elab_parseVars xs es k6 k7.symm h5
      refine ⟨n1 + n2 + n3 + n4, z, s2, k8, k9, fun n hn => ?_⟩
      simp only [parseVars]
      have hc : s1.checkType b n false ty = .ok () := by
        simp [State.checkType, State.typeCheckAs, k4 n (by omega), Run.bind, Run.guard, h3]
      rw [bind_ok_eq (k3 n (by omega)), bind_ok_eq hc, bind_ok_eq (k5 n (by omega)), map_ok_eq (k10 n (by omega))]
theorem elab_parseLets : ∀ (xs : List Name) (es : List SExp) {a : Stack} {st : State} {ls : List (Name × Term × Term)} {v v' : Vis},
    On st0 a st → v = visOf a st → Lets (envAt b st0) v xs es ls v' →
    ∃ n0 st', On st0 a st' ∧ v' = visOf a st' ∧ ∀ n, n0 ≤ n → parseLets b n xs es st = .ok (st', ls)
  | [], es, a, st, vs, v, v', h, hv, he => by
    cases he; exact ⟨0, st, h, hv, fun n _ => by simp [parseLets]⟩
  | x :: xs, [], a, st, vs, v, v', h, hv, he => by
    cases he; exact ⟨0, st, h, hv, fun n _ => by simp [parseLets]⟩
  | x :: xs, e :: es, a, st, vs, v, v', h, hv, he => by
    cases he with
    | nil _ _ _ h => simp at h
    | cons _ _ _ _ _ t v1 ty u us v2 h1 h2 h3 h4 =>
      obtain ⟨n1, s1, k1, rfl, k3⟩ := elab_parseExpr e h hv h1
      obtain ⟨n2, k4⟩ := typeCheck_later b k1 h2
      obtain ⟨n3, k5⟩ := getBoundVar_later b k1 h3
      obtain ⟨n4, s2, k8, k9, k10⟩ := elab_parseLets xs es k1 rfl h4
      refine ⟨n1 + n2 + n3 + n4, s2, k8, k9, fun n hn => ?_⟩
      simp only [parseLets]
      rw [bind_ok_eq (k3 n (by omega)), bind_ok_eq (k4 n (by omega)), bind_ok_eq (k5 n (by omega)), map_ok_eq (k10 n (by omega))]
end

end
end Ethos.Props
