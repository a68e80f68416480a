import Verif.Lemmas.Desugar
import Verif.Props.Ops
/-
The attribute cases of application building compute the documented terms.
-/
namespace Ethos.Props
open Ethos Kind Spec

variable {env : Env}

theorem isListParam_iff (t : Term) : IsListParam env t ↔ env.constructorKind t = .LIST := by
  unfold IsListParam Env.constructorKind
  cases env.appInfo t <;> simp

theorem app2_eq (f a b : Term) : app2 f a b = bin f a b := rfl

theorem assocStep_list {hd : Term} {l : Bool} {st : Term × Nat} {x : Term} (h : IsListParam env x) :
    assocStep env hd true l st x = (.node EVAL_LIST_CONCAT (if l then [hd, st.1, x] else [hd, x, st.1]), st.2) := by
  simp [assocStep, (isListParam_iff x).mp h]

theorem assocStep_elem {hd : Term} {l : Bool} {st : Term × Nat} {x : Term} (h : ¬ IsListParam env x) :
    assocStep env hd true l st x = (if l then bin hd st.1 x else bin hd x st.1, st.2 + 1) := by
  rw [isListParam_iff] at h
  simp [assocStep, h, app2_eq]

theorem assocStep_plain {hd : Term} {l : Bool} {st : Term × Nat} {x : Term} :
    assocStep env hd false l st x = (if l then bin hd st.1 x else bin hd x st.1, st.2 + 1) := by
  simp [assocStep, app2_eq]

open Classical in
/-- number of arguments not marked `:list` -/
noncomputable def elems (env : Env) (args : List Term) : Nat := (args.filter fun t => decide (¬ IsListParam env t)).length

theorem elems_cons_list {t : Term} {ts : List Term} (h : IsListParam env t) : elems env (t :: ts) = elems env ts := by
  simp [elems, h]
theorem elems_cons_elem {t : Term} {ts : List Term} (h : ¬ IsListParam env t) : elems env (t :: ts) = elems env ts + 1 := by
  simp [elems, h]
theorem elems_append (a b : List Term) : elems env (a ++ b) = elems env a + elems env b := by
  simp [elems]

theorem elems_pos {ts : List Term} : 0 < elems env ts ↔ ∃ (j : Nat) (b : Term), ts[j]? = some b ∧ ¬ IsListParam env b := by
  induction ts with
  | nil => simp [elems]
  | cons t ts ih =>
    by_cases h : IsListParam env t
    · rw [elems_cons_list h, ih]
      constructor
      · rintro ⟨j, b, h1, h2⟩; exact ⟨j+1, b, h1, h2⟩
      · rintro ⟨j, b, h1, h2⟩
        cases j with
        | zero => simp at h1; subst h1; exact absurd h h2
        | succ j => exact ⟨j, b, h1, h2⟩
    · rw [elems_cons_elem h]
      exact ⟨fun _ => ⟨0, t, rfl, h⟩, fun _ => by omega⟩

theorem twoElems_iff (ts : List Term) : TwoElems env ts ↔ 2 ≤ elems env ts := by
  unfold TwoElems
  induction ts with
  | nil => simp [elems]
  | cons t ts ih =>
    by_cases h : IsListParam env t
    · rw [elems_cons_list h, ← ih]
      constructor
      · rintro ⟨i, j, a, b, hij, ha, hb, hna, hnb⟩
        cases i with
        | zero => simp at ha; subst ha; exact absurd h hna
        | succ i => cases j with
          | zero => omega
          | succ j => exact ⟨i, j, a, b, by omega, ha, hb, hna, hnb⟩
      · rintro ⟨i, j, a, b, hij, ha, hb, hna, hnb⟩
        exact ⟨i+1, j+1, a, b, by omega, ha, hb, hna, hnb⟩
    · rw [elems_cons_elem h]
      have : 2 ≤ elems env ts + 1 ↔ 0 < elems env ts := by omega
      rw [this, elems_pos]
      constructor
      · rintro ⟨i, j, a, b, hij, ha, hb, hna, hnb⟩
        cases j with
        | zero => omega
        | succ j => exact ⟨j, b, hb, hnb⟩
      · rintro ⟨j, b, hb, hnb⟩
        exact ⟨0, j+1, t, b, by omega, rfl, hb, h, hnb⟩

/-! ### Right-associative -/

theorem rightNest_fold {f : Term} {args : List Term} {t : Term} (h : RightNest f args t) :
    ∃ pre last, args = pre ++ [last] ∧ (pre.foldr (fun a st => assocStep env f false false st a) (last, 0)).1 = t := by
  induction h with
  | last t => exact ⟨[], t, rfl, rfl⟩
  | cons t ts u _ ih =>
    obtain ⟨pre, last, rfl, h⟩ := ih
    refine ⟨t :: pre, last, rfl, ?_⟩
    rw [List.foldr_cons, assocStep_plain, h]
    rfl

theorem rightNil_fold {f nil : Term} {args : List Term} {t : Term} (h : RightNil env f nil args t) :
    ∃ pre last, args = pre ++ [last] ∧
      (IsListParam env last → pre.foldr (fun a st => assocStep env f true false st a) (last, 0) = (t, elems env args)) ∧
      (¬ IsListParam env last → args.foldr (fun a st => assocStep env f true false st a) (nil, 0) = (t, elems env args)) := by
  induction h with
  | lastList t ht => exact ⟨[], t, rfl, fun _ => by simp [elems, ht], fun h => absurd ht h⟩
  | last t ht =>
    refine ⟨[], t, rfl, fun h => absurd h ht, fun _ => ?_⟩
    rw [List.foldr_cons, assocStep_elem ht, elems_cons_elem ht]
    rfl
  | list t ts u ht _ ih =>
    obtain ⟨pre, last, rfl, h1, h2⟩ := ih
    refine ⟨t :: pre, last, rfl, fun hl => ?_, fun hl => ?_⟩
    · rw [List.foldr_cons, h1 hl, assocStep_list ht, elems_cons_list ht]; rfl
    · rw [List.foldr_cons, h2 hl, assocStep_list ht, elems_cons_list ht]; rfl
  | elem t ts u ht _ ih =>
    obtain ⟨pre, last, rfl, h1, h2⟩ := ih
    refine ⟨t :: pre, last, rfl, fun hl => ?_, fun hl => ?_⟩
    · rw [List.foldr_cons, h1 hl, assocStep_elem ht, elems_cons_elem ht]; rfl
    · rw [List.foldr_cons, h2 hl, assocStep_elem ht, elems_cons_elem ht]; rfl

/-! ### Left-associative -/

theorem leftNest_fold {f : Term} {args : List Term} {t : Term} (h : LeftNest f args t) :
    ∃ first rest, args = first :: rest ∧ (rest.foldl (assocStep env f false true) (first, 0)).1 = t := by
  induction h with
  | first t => exact ⟨t, [], rfl, rfl⟩
  | snoc t ts u _ ih =>
    obtain ⟨first, rest, rfl, h⟩ := ih
    refine ⟨first, rest ++ [t], rfl, ?_⟩
    rw [List.foldl_append, List.foldl_cons, List.foldl_nil, assocStep_plain, h]
    rfl

theorem leftNil_fold {f nil : Term} {args : List Term} {t : Term} (h : LeftNil env f nil args t) :
    ∃ first rest, args = first :: rest ∧
      (IsListParam env first → rest.foldl (assocStep env f true true) (first, 0) = (t, elems env args)) ∧
      (¬ IsListParam env first → args.foldl (assocStep env f true true) (nil, 0) = (t, elems env args)) := by
  induction h with
  | firstList t ht => exact ⟨t, [], rfl, fun _ => by simp [elems, ht], fun h => absurd ht h⟩
  | first t ht =>
    refine ⟨t, [], rfl, fun h => absurd h ht, fun _ => ?_⟩
    rw [List.foldl_cons, assocStep_elem ht, elems_cons_elem ht]
    rfl
  | list t ts u ht _ ih =>
    obtain ⟨first, rest, rfl, h1, h2⟩ := ih
    have he : elems env (first :: rest ++ [t]) = elems env (first :: rest) := by
      rw [elems_append, elems_cons_list ht]; simp [elems]
    refine ⟨first, rest ++ [t], rfl, fun hl => ?_, fun hl => ?_⟩
    · rw [he, List.foldl_append, h1 hl, List.foldl_cons, List.foldl_nil, assocStep_list ht]; rfl
    · rw [he, List.foldl_append, h2 hl, List.foldl_cons, List.foldl_nil, assocStep_list ht]; rfl
  | elem t ts u ht _ ih =>
    obtain ⟨first, rest, rfl, h1, h2⟩ := ih
    have he : elems env (first :: rest ++ [t]) = elems env (first :: rest) + 1 := by
      rw [elems_append, elems_cons_elem ht]; simp [elems]
    refine ⟨first, rest ++ [t], rfl, fun hl => ?_, fun hl => ?_⟩
    · rw [he, List.foldl_append, h1 hl, List.foldl_cons, List.foldl_nil, assocStep_elem ht]; rfl
    · rw [he, List.foldl_append, h2 hl, List.foldl_cons, List.foldl_nil, assocStep_elem ht]; rfl

/-! ### The terminator -/

theorem consTerm_two (o : Ops) (ai : AppInfo) (hd c : Term) (r : List Term) :
    consTerm o ai (hd :: c :: r) = consTerm o ai [hd, c] := rfl

/-- the result of the inference of the nil terminator, `none` if it is left for later -/
theorem consTerm_terminator {f t1 ct nil : Term} {a : Attr} {l : Bool} {k : Kind} {ov : Option (List Nat)} (ts : List Term)
    (ha : NilAttr a l) (h : Terminator env f t1 ct nil) :
    ∃ n c, consTerm (ops env n) ⟨a, some ct, k, ov⟩ (f :: t1 :: ts) = .ok c ∧
      nil = c.getD (.node EVAL_NIL [f, .node EVAL_TYPE_OF [t1]]) := by
  cases h with
  | known _ h =>
    obtain ⟨n, h⟩ := consTerm_nilFor (k := k) (ov := ov) ha h
    exact ⟨n, some nil, by rw [consTerm_two, h], rfl⟩
  | later ps body r ctx kt d ret ty p hct hk ht hf hb he hany hp hn =>
    subst hct
    obtain ⟨N, ctx', cts, h1, h2, h3⟩ := typeApp_complete (args := [t1]) (doms := [d]) hk ht rfl hb (by
      intro i d' t hd ht
      cases i with
      | zero => simp at hd ht; subst hd; subst ht; exact hf
      | succ i => simp at hd) he (by simpa using hany)
    obtain ⟨u0, e0⟩ := typesOf_spec h3 f (by simp)
    obtain ⟨u1, e1⟩ := typesOf_spec h3 t1 (by simp)
    have hna : isNAryAttr a = true := by cases ha <;> rfl
    have hpg : paramsGround ctx' ps.children = false := by
      unfold paramsGround
      rw [List.all_eq_false]
      refine ⟨p, hp, ?_⟩
      rw [← h2 p]
      cases hv : ctx.find p with
      | none => simp
      | some v =>
        simp only
        intro hg
        exact hn ⟨v, hv, (ground_iff v).mp hg⟩
    refine ⟨N, none, ?_, rfl⟩
    rw [consTerm_two]
    simp [consTerm, kind_node, children_node, hna, e0, e1, Out.bind, h1, hpg]

/-! ### The cases -/

/-- `mkAssoc` on a nil-terminated right-associative operator -/
theorem mkAssoc_rightNil {mk : Kind → List Term → Out Term} {a : Attr} {f nil t1 t : Term} {ts : List Term} {c : Option Term}
    (ha : a = .RIGHT_ASSOC_NIL ∨ a = .RIGHT_ASSOC_NS_NIL) (hc : nil = c.getD (.node EVAL_NIL [f, .node EVAL_TYPE_OF [t1]]))
    (h : RightNil env f nil (t1 :: ts) t) :
    mkAssoc env mk a f (t1 :: ts) c =
      if a = .RIGHT_ASSOC_NS_NIL ∧ elems env (t1 :: ts) < 2 then (mk EVAL_LIST_SINGLETON_ELIM [f, t]).map some
      else .ok (some t) := by
  obtain ⟨pre, last, hargs, h1, h2⟩ := rightNil_fold h
  have hrev : (t1 :: ts).reverse = last :: pre.reverse := by rw [hargs]; simp
  have key : (if decide (env.constructorKind last ≠ .LIST) = true then
        (last :: pre.reverse).foldl (assocStep env f true false) (nil, 0)
      else pre.reverse.foldl (assocStep env f true false) (last, 0)) = (t, elems env (t1 :: ts)) := by
    split
    · rename_i h; simp only [decide_eq_true_eq] at h
      rw [← hrev, List.foldl_reverse]
      exact h2 fun hl => h ((isListParam_iff _).mp hl)
    · rename_i h; simp only [decide_eq_true_eq, Classical.not_not] at h
      rw [List.foldl_reverse]
      exact h1 ((isListParam_iff _).mpr h)
  unfold mkAssoc
  rcases ha with rfl | rfl
  · simp only [reduceCtorEq, or_self, decide_false, Bool.false_eq_true, if_false, hrev, or_true, true_or, decide_true, Bool.or_true, Bool.or_false,
      Bool.false_or, Bool.true_and, Bool.false_and, false_and, ← hc, key]
  · simp only [reduceCtorEq, or_self, decide_false, Bool.false_eq_true, if_false, hrev, or_true, true_or, decide_true, Bool.or_true, Bool.or_false,
      Bool.false_or, Bool.true_or, Bool.true_and, Bool.false_and, true_and, ← hc, key]
    simp only [decide_eq_true_eq]

/-- `mkAssoc` on a nil-terminated left-associative operator -/
theorem mkAssoc_leftNil {mk : Kind → List Term → Out Term} {a : Attr} {f nil t1 t : Term} {ts : List Term} {c : Option Term}
    (ha : a = .LEFT_ASSOC_NIL ∨ a = .LEFT_ASSOC_NS_NIL) (hc : nil = c.getD (.node EVAL_NIL [f, .node EVAL_TYPE_OF [t1]]))
    (h : LeftNil env f nil (t1 :: ts) t) :
    mkAssoc env mk a f (t1 :: ts) c =
      if a = .LEFT_ASSOC_NS_NIL ∧ elems env (t1 :: ts) < 2 then (mk EVAL_LIST_SINGLETON_ELIM [f, t]).map some
      else .ok (some t) := by
  obtain ⟨first, rest, hargs, h1, h2⟩ := leftNil_fold h
  simp only [List.cons.injEq] at hargs
  obtain ⟨rfl, rfl⟩ := hargs
  have key : (if decide (env.constructorKind t1 ≠ .LIST) = true then
        (t1 :: ts).foldl (assocStep env f true true) (nil, 0)
      else ts.foldl (assocStep env f true true) (t1, 0)) = (t, elems env (t1 :: ts)) := by
    split
    · rename_i h; simp only [decide_eq_true_eq] at h
      exact h2 fun hl => h ((isListParam_iff _).mp hl)
    · rename_i h; simp only [decide_eq_true_eq, Classical.not_not] at h
      exact h1 ((isListParam_iff _).mpr h)
  unfold mkAssoc
  rcases ha with rfl | rfl
  · simp only [reduceCtorEq, or_self, decide_false, Bool.false_eq_true, if_false, if_true, or_true, true_or, decide_true, Bool.or_true, Bool.or_false,
      Bool.false_or, Bool.true_and, Bool.false_and, false_and, ← hc, key]
  · simp only [reduceCtorEq, or_self, decide_false, Bool.false_eq_true, if_false, if_true, or_true, true_or, decide_true, Bool.or_true, Bool.or_false,
      Bool.false_or, Bool.true_or, Bool.true_and, Bool.false_and, true_and, ← hc, key]
    simp only [decide_eq_true_eq]

theorem mkAssoc_right {mk : Kind → List Term → Out Term} {f t : Term} {args : List Term} {c : Option Term}
    (h : RightNest f args t) : mkAssoc env mk .RIGHT_ASSOC f args c = .ok (some t) := by
  obtain ⟨pre, last, hargs, h1⟩ := rightNest_fold (env := env) h
  have hrev : args.reverse = last :: pre.reverse := by rw [hargs]; simp
  cases args with
  | nil => simp at hargs
  | cons a args =>
    unfold mkAssoc
    simp only [reduceCtorEq, or_self, decide_false, Bool.false_eq_true, if_false, hrev, Bool.or_false, Bool.false_and]
    rw [List.foldl_reverse, h1]

theorem mkAssoc_left {mk : Kind → List Term → Out Term} {f t : Term} {args : List Term} {c : Option Term}
    (h : LeftNest f args t) : mkAssoc env mk .LEFT_ASSOC f args c = .ok (some t) := by
  obtain ⟨first, rest, rfl, h1⟩ := leftNest_fold (env := env) h
  unfold mkAssoc
  simp only [reduceCtorEq, or_self, or_false, decide_true, decide_false, Bool.false_eq_true, if_false, if_true, Bool.or_false, Bool.false_and]
  rw [h1]

theorem mkApplyInternal_snoc (f t : Term) (ts : List Term) :
    mkApplyInternal f (ts ++ [t]) = .node APPLY [mkApplyInternal f ts, t] := by simp [mkApplyInternal]

theorem curry_iff (f : Term) (ts : List Term) (t : Term) : Curry f ts t ↔ t = mkApplyInternal f ts := by
  constructor
  · intro h
    induction h with
    | nil => rfl
    | snoc ts t u _ ih => rw [mkApplyInternal_snoc, ← ih]
  · rintro rfl
    have : ∀ (r : List Term), Curry f r.reverse (mkApplyInternal f r.reverse) := by
      intro r
      induction r with
      | nil => exact .nil
      | cons t r ih => rw [List.reverse_cons, mkApplyInternal_snoc]; exact .snoc _ _ _ ih
    simpa using this ts.reverse

theorem mkApply_eq {f : Term} {args : List Term} (h : args ≠ []) : mkApply (f :: args) = mkApplyInternal f args := by
  match args, h with
  | [a], _ => rfl
  | a :: b :: r, _ => rfl

theorem chainPairs_eq (f : Term) : ∀ ts, chainPairs f ts = (neighbours ts).map fun p => bin f p.1 p.2
  | [] => rfl
  | [_] => rfl
  | a :: b :: r => by
    have := chainPairs_eq f (b :: r)
    simp [chainPairs, this, neighbours, app2_eq]

theorem allPairs_eq (f : Term) : ∀ ts, allPairs f ts = (pairs ts).map fun p => bin f p.1 p.2
  | [] => rfl
  | a :: r => by
    rw [allPairs, allPairs_eq f r]
    simp [pairs, app2_eq, Function.comp_def]

theorem combine_ok {mk : Kind → List Term → Out Term} {c t : Term} {apps : List Term} (h : apps.length ≠ 1)
    (hm : mk APPLY (c :: apps) = .ok t) : combine mk (some c) apps = .ok (some t) := by
  unfold combine
  split
  · simp at h
  · simp [hm, Out.map]

theorem neighbours_length (ts : List Term) : (neighbours ts).length = ts.length - 1 := by simp [neighbours]

theorem pairs_length_ne {ts : List Term} (h : ts.length ≠ 2) : (pairs ts).length ≠ 1 := by
  match ts with
  | [] => simp [pairs]
  | [a] => simp [pairs]
  | [a, b] => simp at h
  | a :: b :: c :: r => simp [pairs]

theorem mkApplyAttr_assoc {mk : Kind → List Term → Out Term} {ai : AppInfo} {f : Term} {args : List Term} {c : Option Term}
    (h : isAssocAttr ai.attr = true) : mkApplyAttr env mk ai f args c = mkAssoc env mk ai.attr f args c := by
  simp [mkApplyAttr, h]

/-- an overload's own constructor term, as computed by the application builder -/
theorem appForm_spec {f hd t : Term} {args : List Term} {ai : AppInfo} (h : AppForm env f ai.attr ai.cons args t)
    (hf : hd = f ∨ ∀ ct, ai.cons = some ct → ct.kind ≠ PARAMETERIZED) :
    ∃ n c, consTerm (ops env n) ai (hd :: args) = .ok c ∧
      (mkApplyAttr env (mkExpr env (ops env n) n) ai f args c = .ok (some t) ∨
        ai.attr = .NONE ∧ mkApplyAttr env (mkExpr env (ops env n) n) ai f args c = .ok none ∧ args ≠ [] ∧ f.kind ≠ LAMBDA ∧
          f.kind ≠ PROGRAM_CONST ∧ f.kind ≠ PROOF_RULE ∧ t = mkApplyInternal f args) := by
  obtain ⟨attr, cons, kd, ov⟩ := ai
  simp only at h hf
  have term : ∀ {a l t1 ts ct nil}, NilAttr a l → cons = some ct → Terminator env f t1 ct nil → ∃ n c,
      (∀ m, n ≤ m → consTerm (ops env m) ⟨a, some ct, kd, ov⟩ (hd :: t1 :: ts) = .ok c) ∧
      nil = c.getD (.node EVAL_NIL [f, .node EVAL_TYPE_OF [t1]]) := by
    intro a l t1 ts ct nil ha hct ht
    rcases hf with rfl | hf
    · obtain ⟨n, c, h1, h2⟩ := consTerm_terminator (k := kd) (ov := ov) ts ha ht
      exact ⟨n, c, fun m hm => (consTerm_mono (ops_mono env hm) _ _).ok h1, h2⟩
    · have hp := hf ct hct
      cases ht with
      | known _ hn =>
        cases hn with
        | const _ _ => exact ⟨0, some ct, fun m _ => by simp [consTerm, hp], rfl⟩
        | infer ps body r => exact absurd rfl hp
      | later ps body r _ _ _ _ _ _ hct' => subst hct'; exact absurd rfl hp
  have const : ∀ {ct : Term} {a : Attr} {cs} (m : Nat), ct.kind ≠ PARAMETERIZED →
      consTerm (ops env m) ⟨a, some ct, kd, ov⟩ cs = .ok (some ct) := by
    intro ct a cs m h; simp [consTerm, h]
  cases h with
  | plain args t hne h1 h2 h3 hc =>
    exact ⟨0, none, rfl, .inr ⟨rfl, rfl, hne, h1, h2, h3, (curry_iff _ _ _).mp hc⟩⟩
  | rightAssoc args t h => exact ⟨0, none, rfl, .inl (by rw [mkApplyAttr_assoc rfl]; exact mkAssoc_right h)⟩
  | leftAssoc args t h => exact ⟨0, none, rfl, .inl (by rw [mkApplyAttr_assoc rfl]; exact mkAssoc_left h)⟩
  | rightNil ct t1 ts nil t ht h =>
    obtain ⟨n, c, h1, h2⟩ := term (ts := ts) .right rfl ht
    refine ⟨n, c, h1 n (Nat.le_refl _), .inl ?_⟩
    rw [mkApplyAttr_assoc rfl]
    rw [mkAssoc_rightNil (.inl rfl) h2 h]; simp
  | leftNil ct t1 ts nil t ht h =>
    obtain ⟨n, c, h1, h2⟩ := term (ts := ts) .left rfl ht
    refine ⟨n, c, h1 n (Nat.le_refl _), .inl ?_⟩
    rw [mkApplyAttr_assoc rfl]
    rw [mkAssoc_leftNil (.inl rfl) h2 h]; simp
  | rightNs ct t1 ts nil t ht h he =>
    obtain ⟨n, c, h1, h2⟩ := term (ts := ts) .rightNs rfl ht
    refine ⟨n, c, h1 n (Nat.le_refl _), .inl ?_⟩
    rw [mkApplyAttr_assoc rfl]
    rw [mkAssoc_rightNil (.inr rfl) h2 h, if_neg]
    have := (twoElems_iff _).mp he; omega
  | leftNs ct t1 ts nil t ht h he =>
    obtain ⟨n, c, h1, h2⟩ := term (ts := ts) .leftNs rfl ht
    refine ⟨n, c, h1 n (Nat.le_refl _), .inl ?_⟩
    rw [mkApplyAttr_assoc rfl]
    rw [mkAssoc_leftNil (.inr rfl) h2 h, if_neg]
    have := (twoElems_iff _).mp he; omega
  | rightElim ct t1 ts nil u t ht h he hb =>
    obtain ⟨n, c, h1, h2⟩ := term (ts := ts) .rightNs rfl ht
    obtain ⟨m, hb⟩ := hb
    refine ⟨max n m, c, h1 _ (Nat.le_max_left _ _), .inl ?_⟩
    rw [mkApplyAttr_assoc rfl]
    rw [mkAssoc_rightNil (.inr rfl) h2 h, if_pos]
    · rw [(mkExpr_mono (ops_mono env (Nat.le_max_right n m)) m _ (Nat.le_max_right n m) _ _).ok hb]; rfl
    · exact ⟨rfl, by rw [twoElems_iff] at he; omega⟩
  | leftElim ct t1 ts nil u t ht h he hb =>
    obtain ⟨n, c, h1, h2⟩ := term (ts := ts) .leftNs rfl ht
    obtain ⟨m, hb⟩ := hb
    refine ⟨max n m, c, h1 _ (Nat.le_max_left _ _), .inl ?_⟩
    rw [mkApplyAttr_assoc rfl]
    rw [mkAssoc_leftNil (.inr rfl) h2 h, if_pos]
    · rw [(mkExpr_mono (ops_mono env (Nat.le_max_right n m)) m _ (Nat.le_max_right n m) _ _).ok hb]; rfl
    · exact ⟨rfl, by rw [twoElems_iff] at he; omega⟩
  | chain2 a b c hp => exact ⟨0, some c, const 0 hp, .inl rfl⟩
  | chain c args t hp hl hd =>
    obtain ⟨n, hd⟩ := hd
    refine ⟨n, some c, const n hp, .inl ?_⟩
    simp only [mkApplyAttr, isAssocAttr, Bool.false_eq_true, if_false]
    refine combine_ok ?_ (by rw [chainPairs_eq]; exact hd)
    rw [chainPairs_eq, List.length_map, neighbours_length]; omega
  | pair2 a b c hp => exact ⟨0, some c, const 0 hp, .inl rfl⟩
  | pairwise c args t hp hl hd =>
    obtain ⟨n, hd⟩ := hd
    refine ⟨n, some c, const n hp, .inl ?_⟩
    simp only [mkApplyAttr, isAssocAttr, Bool.false_eq_true, if_false]
    refine combine_ok ?_ (by rw [allPairs_eq]; exact hd)
    rw [allPairs_eq, List.length_map]; exact pairs_length_ne hl
  | argList1 c l hp hl =>
    refine ⟨0, some c, const 0 hp, .inl ?_⟩
    simp [mkApplyAttr, isAssocAttr, (isListParam_iff l).mp hl, argO, Out.map]
  | argList c args l hp hl hd =>
    obtain ⟨n, hd⟩ := hd
    refine ⟨n, some c, const n hp, .inl ?_⟩
    have : ¬ (args.length = 1 ∧ args.map env.constructorKind = [Attr.LIST]) := by
      rintro ⟨h1, h2⟩
      match args, h1 with
      | [x], _ => exact hl ⟨x, rfl, (isListParam_iff x).mpr (by simpa using h2)⟩
    simp only [mkApplyAttr, isAssocAttr, Bool.false_eq_true, if_false, this]
    rw [hd]; rfl

end Ethos.Props
