import Verif.Lemmas.EvalOps
import Verif.Lemmas.Match
import Verif.Spec.Typing
/- Lemmas about the typing of applications. -/
namespace Ethos.Props
open Ethos Kind Spec

section
variable {O : Kind → List Term → Option Term → Prop} {P : List Term → Option (Term × Ctx) → Prop}
mutual
/-- evaluation depends on the context only through lookups -/
theorem Eval.congr {ctx : Ctx} {t v : Term} (h : Eval O P ctx t v) {ctx' : Ctx} (he : ∀ p, ctx.find p = ctx'.find p) :
    Eval O P ctx' t v :=
  match h with
  | .bound _ b c d e => .bound _ b c d ((he b).symm.trans e)
  | .free _ b c d => .free _ b c ((he b).symm.trans d)
  | .leaf _ b c d => .leaf _ b c d
  | .ite _ b c d e f g i => .ite _ b c d e f (Eval.congr g he) (Eval.congr i he)
  | .iteStuck _ b c d e f g i j k l => .iteStuck _ b c d e f g (Eval.congr i he) j (Eval.congr k he) (Eval.congr l he)
  | .iteBad _ b c d => .iteBad _ b c d
  | .op _ b c d e f g i j k => .op _ b c d e f g i (EvalList.congr j he) k
  | .opStuck _ b c d e f g i j => .opStuck _ b c d e f g (EvalList.congr i he) j
  | .progStuck _ b c d e f g i j => .progStuck _ b c d e f (EvalList.congr g he) i j
  | .progConst _ b c d e f g i j k l m => .progConst _ b c d e f g i (EvalList.congr j he) k l m
  | .progRun _ b c d e f g i j k l m n o p => .progRun _ b c d e f g i j (EvalList.congr k he) l m n o p
  | .app _ b c d e f g i => .app _ b c d e f (EvalList.congr g he) i
  | .other _ b c d e f g i j => .other _ b c d e f g i (EvalList.congr j he)
theorem EvalList.congr {ctx : Ctx} {t v : List Term} (h : EvalList O P ctx t v) {ctx' : Ctx} (he : ∀ p, ctx.find p = ctx'.find p) :
    EvalList O P ctx' t v :=
  match h with
  | .nil _ => .nil _
  | .cons _ b c d e f g => .cons _ b c d e (Eval.congr f he) (EvalList.congr g he)
end
end

theorem evaluatesTo_congr {env : Env} {ctx ctx' : Ctx} {t v : Term} (h : EvaluatesTo env ctx t v)
    (he : ∀ p, ctx.find p = ctx'.find p) : EvaluatesTo env ctx' t v :=
  (evaluatesTo_iff _ _ _ _).mpr (Eval.congr ((evaluatesTo_iff _ _ _ _).mp h) he)

theorem bind_ok {α β : Type} {x : Out α} {f : α → Out β} {b : β} (h : x.bind f = .ok b) : ∃ a, x = .ok a ∧ f a = .ok b := by
  cases x with
  | ok a => exact ⟨a, rfl, h⟩
  | ub => simp [Out.bind] at h
  | fuel => simp [Out.bind] at h

theorem map_ok {α β : Type} {x : Out α} {f : α → β} {b : β} (h : x.map f = .ok b) : ∃ a, x = .ok a ∧ f a = b := by
  cases x with
  | ok a => exact ⟨a, rfl, by simpa [Out.map] using h⟩
  | ub => simp [Out.map] at h
  | fuel => simp [Out.map] at h

/-- the pair matched for one argument -/
inductive PairFor (o : Ops) : Term → Term → Term × Term → Prop
  | plain (d t ty) : d.kind ≠ QUOTE_TYPE → o.getType t = .ok (some ty) → PairFor o d t (d, ty)
  | quote (q t ty r) : o.getType t = .ok (some ty) → o.getType q = .ok (some ty) →
      PairFor o (.node QUOTE_TYPE (q :: r)) t (q, t)

theorem quote_shape {d q : Term} (h : argO d.children 0 = .ok q) (hk : d.kind = QUOTE_TYPE) : ∃ r, d = .node QUOTE_TYPE (q :: r) := by
  cases d with
  | sym k i => simp [argO, Term.children] at h
  | lit l => simp [argO, Term.children] at h
  | node k cs =>
    simp only [Term.kind] at hk
    cases cs with
    | nil => simp [argO, Term.children] at h
    | cons c cs =>
      simp only [argO, Term.children, List.getElem?_cons_zero, Out.ok.injEq] at h
      exact ⟨cs, by rw [hk, h]⟩

theorem appPairs_spec {o : Ops} : ∀ (ds cs : List Term) (prs : List (Term × Term)), appPairs o ds cs = .ok (prs, true) →
    ds.length = cs.length → prs.length = ds.length ∧ ∀ (i : Nat) (d t : Term), ds[i]? = some d → cs[i]? = some t →
      ∃ pr, prs[i]? = some pr ∧ PairFor o d t pr
  | [], [], prs, h, _ => by
    simp only [appPairs, Out.ok.injEq, Prod.mk.injEq, and_true] at h
    subst h; exact ⟨rfl, by simp⟩
  | [], _ :: _, _, _, hl => by simp at hl
  | _ :: _, [], _, _, hl => by simp at hl
  | d :: ds, c :: cs, prs, h, hl => by
    have hl' : ds.length = cs.length := by simpa using hl
    have fin : ∀ pr r, PairFor o d c pr → appPairs o ds cs = .ok (r, true) → prs = pr :: r →
        prs.length = (d :: ds).length ∧ ∀ (i : Nat) (d' t : Term), (d :: ds)[i]? = some d' → (c :: cs)[i]? = some t →
          ∃ pr, prs[i]? = some pr ∧ PairFor o d' t pr := by
      intro pr r h1 h2 h3
      obtain ⟨h4, h5⟩ := appPairs_spec ds cs r h2 hl'
      subst h3
      refine ⟨by simp [h4], ?_⟩
      intro i d' t hd ht
      cases i with
      | zero =>
        simp only [List.getElem?_cons_zero, Option.some.injEq] at hd ht ⊢
        subst hd; subst ht; exact ⟨_, rfl, h1⟩
      | succ i =>
        simp only [List.getElem?_cons_succ] at hd ht ⊢
        exact h5 i d' t hd ht
    rw [appPairs] at h
    by_cases hk : d.kind = QUOTE_TYPE
    · rw [if_pos hk] at h
      obtain ⟨q, h1, h⟩ := bind_ok h
      obtain ⟨ct, h2, h⟩ := bind_ok h
      obtain ⟨cte, h3, h⟩ := bind_ok h
      obtain ⟨r, rfl⟩ := quote_shape h1 hk
      cases ct with
      | none => simp at h
      | some t =>
        simp only at h
        by_cases he : cte = some t
        · rw [if_pos he] at h
          obtain ⟨x, h4, h5⟩ := map_ok h
          obtain ⟨x1, x2⟩ := x
          simp only [Prod.mk.injEq] at h5
          obtain ⟨h5, rfl⟩ := h5
          exact fin _ _ (.quote _ _ _ _ h2 (he ▸ h3)) h4 h5.symm
        · rw [if_neg he] at h; simp at h
    · rw [if_neg hk] at h
      obtain ⟨ct, h2, h⟩ := bind_ok h
      cases ct with
      | none => simp at h
      | some t =>
        obtain ⟨x, h4, h5⟩ := map_ok h
        obtain ⟨x1, x2⟩ := x
        simp only [Prod.mk.injEq] at h5
        obtain ⟨h5, rfl⟩ := h5
        exact fin _ _ (.plain _ _ _ hk h2) h4 h5.symm

theorem appPairs_complete {o : Ops} : ∀ (ds cs : List Term) (prs : List (Term × Term)), ds.length = cs.length → prs.length = ds.length →
    (∀ (i : Nat) (d t : Term) (pr : Term × Term), ds[i]? = some d → cs[i]? = some t → prs[i]? = some pr → PairFor o d t pr) →
    appPairs o ds cs = .ok (prs, true)
  | [], [], prs, _, hl, _ => by
    have : prs = [] := List.eq_nil_of_length_eq_zero (by simpa using hl)
    subst this; rfl
  | [], _ :: _, _, hl, _, _ => by simp at hl
  | _ :: _, [], _, hl, _, _ => by simp at hl
  | d :: ds, c :: cs, [], _, hl, _ => by simp at hl
  | d :: ds, c :: cs, pr :: prs, hl, hl2, h => by
    have ih := appPairs_complete ds cs prs (by simpa using hl) (by simpa using hl2)
      (fun i d t pr h1 h2 h3 => h (i+1) d t pr h1 h2 h3)
    have h0 := h 0 d c pr rfl rfl rfl
    rw [appPairs]
    cases h0 with
    | plain _ _ ty h1 h2 =>
      rw [if_neg h1, h2]
      simp [Out.bind, ih, Out.map]
    | quote q _ ty r h1 h2 =>
      rw [if_pos (by simp [Term.kind])]
      simp [argO, Term.children, Out.bind, h1, h2, ih, Out.map]

theorem argPattern_plain {d : Term} (h : d.kind ≠ QUOTE_TYPE) : argPattern d = d := by
  unfold argPattern
  split
  · simp [Term.kind] at h
  · rfl

theorem pair_fst {o : Ops} {d t : Term} {pr : Term × Term} (h : PairFor o d t pr) : pr.1 = argPattern d := by
  cases h with
  | plain _ _ ty h => exact (argPattern_plain h).symm
  | quote => rfl

theorem typesOf_spec {o : Ops} : ∀ {cs ts : List Term}, typesOf o cs = .ok (some ts) → ∀ c ∈ cs, ∃ t, o.getType c = .ok (some t)
  | [], _, _, c, hc => by simp at hc
  | c :: cs, ts, h, x, hx => by
    rw [typesOf] at h
    obtain ⟨t, h1, h2⟩ := bind_ok h
    cases t with
    | none => simp at h2
    | some t =>
      obtain ⟨r, h3, h4⟩ := map_ok h2
      cases r with
      | none => simp at h4
      | some r =>
        rcases List.mem_cons.mp hx with rfl | hx
        · exact ⟨t, h1⟩
        · exact typesOf_spec h3 x hx

theorem typesOf_complete {o : Ops} : ∀ {cs : List Term}, (∀ c ∈ cs, ∃ t, o.getType c = .ok (some t)) →
    ∃ ts, typesOf o cs = .ok (some ts) ∧ ts.length = cs.length
  | [], _ => ⟨[], rfl, rfl⟩
  | c :: cs, h => by
    obtain ⟨t, ht⟩ := h c (List.mem_cons_self ..)
    obtain ⟨ts, h1, h2⟩ := typesOf_complete (cs := cs) (fun x hx => h x (List.mem_cons_of_mem _ hx))
    exact ⟨t :: ts, by simp [typesOf, ht, Out.bind, h1, Out.map], by simp [h2]⟩

/-- what a successful run of `getTypeAppInternal` has done -/
theorem typeApp_spec {env : Env} {n : Nat} {hd : Term} {args : List Term} {t : Term} {ctx : Ctx}
    (h : typeApp (ops env n) (hd :: args) = .ok (some t, ctx)) :
    ∃ k doms ret, (k = FUNCTION_TYPE ∨ k = PROGRAM_TYPE) ∧ TypeResult env hd (some (.node k (doms ++ [ret]))) ∧
      doms.length = args.length ∧ BindsExactly ctx doms ∧
      (∀ (i : Nat) (d t : Term), doms[i]? = some d → args[i]? = some t → Fits env (ctxSub ctx) d t) ∧
      EvaluatesTo env ctx ret t := by
  unfold typeApp at h
  obtain ⟨hd', h1, h⟩ := bind_ok h
  simp only [argO, List.getElem?_cons_zero, Out.ok.injEq] at h1
  subst h1
  obtain ⟨ht, h2, h⟩ := bind_ok h
  cases ht with
  | none => simp at h
  | some hdType =>
    simp only at h
    by_cases hk : hdType.kind ≠ FUNCTION_TYPE ∧ hdType.kind ≠ PROGRAM_TYPE
    · rw [if_pos hk] at h; simp at h
    rw [if_neg hk] at h
    by_cases hl : hdType.children.length ≠ (hd :: args).length
    · rw [if_pos hl] at h; simp at h
    rw [if_neg hl] at h
    have hl : hdType.children.length = args.length + 1 := by simpa using hl
    obtain ⟨r, h3, h⟩ := bind_ok h
    cases hdType with
    | sym k i => simp [Term.children] at hl
    | lit l => simp [Term.children] at hl
    | node k cs =>
      simp only [Term.kind] at hk
      simp only [Term.children] at hl h3 h
      have hne : cs ≠ [] := by rintro rfl; simp at hl
      have hcs : cs = cs.dropLast ++ [cs.getLast hne] := (List.dropLast_concat_getLast hne).symm
      have hdl : cs.dropLast.length = args.length := by rw [List.length_dropLast, hl]; omega
      generalize hm : matchLoop (Term.sizes (r.1.map Prod.fst)) r.1 [] [] = m at h
      match m with
      | none => simp at h
      | some (false, ctx') => simp at h
      | some (true, ctx') =>
        simp only at h
        cases hr2 : r.2 with
        | false => rw [hr2] at h; simp at h
        | true =>
          rw [hr2] at h
          simp only [if_true, List.getLast?_eq_some_getLast hne] at h
          obtain ⟨v, h4, h5⟩ := map_ok h
          simp only [Prod.mk.injEq, Option.some.injEq] at h5
          obtain ⟨rfl, rfl⟩ := h5
          have h3' : appPairs (ops env n) cs.dropLast args = .ok (r.1, true) := by
            rw [← hr2]; exact h3
          obtain ⟨p1, p2⟩ := appPairs_spec _ _ _ h3' hdl
          obtain ⟨m1, _, m3⟩ := matchLoop_instance hm
          refine ⟨k, cs.dropLast, cs.getLast hne, ?_, ?_, hdl, ?_, ?_, ⟨n, h4⟩⟩
          · by_cases h6 : k = FUNCTION_TYPE
            · exact .inl h6
            · exact .inr (Classical.byContradiction fun h7 => hk ⟨h6, h7⟩)
          · rw [← hcs]; exact ⟨n, h2⟩
          · intro p
            constructor
            · rintro ⟨v', hv'⟩
              rcases m3 p v' hv' with h6 | ⟨h6, pr, h7, h8⟩
              · simp [Ctx.find] at h6
              · refine ⟨h6, ?_⟩
                obtain ⟨i, hi⟩ := List.getElem?_of_mem h7
                have hi' : i < cs.dropLast.length := by
                  have := (List.getElem?_eq_some_iff.mp hi).1; omega
                obtain ⟨pr', h9, h10⟩ := p2 i _ _ (List.getElem?_eq_getElem hi') (List.getElem?_eq_getElem (by omega : i < args.length))
                rw [hi] at h9
                have := Option.some.inj h9
                subst this
                exact ⟨_, List.getElem_mem hi', by rw [← pair_fst h10]; exact h8⟩
            · rintro ⟨hp, d, hd', hs⟩
              obtain ⟨i, hi⟩ := List.getElem?_of_mem hd'
              have hi' : i < args.length := by
                have := (List.getElem?_eq_some_iff.mp hi).1; omega
              obtain ⟨pr, h9, h10⟩ := p2 i _ _ hi (List.getElem?_eq_getElem hi')
              refine (m1 pr.1 pr.2 (List.mem_of_getElem? h9)).2 p ?_ hp
              rw [pair_fst h10]; exact hs
          · intro i d t hd' ht
            obtain ⟨pr, h9, h10⟩ := p2 i d t hd' ht
            have := (m1 pr.1 pr.2 (List.mem_of_getElem? h9)).1
            cases h10 with
            | plain _ _ ty h11 h12 => exact .plain _ _ h11 (by rw [this]; exact ⟨n, h12⟩)
            | quote q _ ty r' h11 h12 => exact .quote _ _ _ _ ⟨n, h11⟩ ⟨n, h12⟩ this

end Ethos.Props
