import Verif.Props.Typing
import Verif.Props.ListsLeft
import Verif.Spec.Nil
/-
C18: when list operators evaluate, and with which terminator.
-/
namespace Ethos.Props
open Ethos Kind Spec

theorem nilAttr_iff (a : Attr) : isListNilAttr a = true ↔ ∃ l, NilAttr a l := by
  constructor
  · intro h
    cases a <;> first | (exact ⟨_, .right⟩) | (exact ⟨_, .left⟩) | (exact ⟨_, .rightNs⟩) | (exact ⟨_, .leftNs⟩) | (simp [isListNilAttr] at h)
  · rintro ⟨l, h⟩; cases h <;> rfl

theorem nilAttr_left {a : Attr} {l : Bool} (h : NilAttr a l) :
    (decide (a = .LEFT_ASSOC_NIL) || decide (a = .LEFT_ASSOC_NS_NIL)) = l := by
  cases h <;> rfl

theorem list_not_special {k : Kind} (h : isListLiteralOp k = true) (env : Env) (o : Ops) (args : List Term) :
    opStep env o k args = if args.any (fun e => !e.ground) then .ok none else evalValues env o k args := by
  cases k <;> first | rfl | (exact absurd h (by simp [isListLiteralOp]))

/-- a term that is not a literal is found among the arguments -/
theorem allLits_none {o : Term} (ho : ∀ l, o ≠ .lit l) (args : List Term) : allLits (o :: args) = none := by
  cases o with
  | lit l => exact absurd rfl (ho l)
  | sym k i => simp [allLits, asLit]
  | node k cs => simp [allLits, asLit]

theorem names_op {f o : Term} (h : Names f o) :
    (if o.kind = PARAMETERIZED then argO o.children 1 else .ok o) = .ok f := by
  cases h with
  | plain h => rw [if_neg h]
  | param ps r => simp [Term.kind, Term.children, argO]

theorem names_not_lit {f o : Term} (h : Names f o) (hf : ∀ l, f ≠ .lit l) : ∀ l, o ≠ .lit l := by
  cases h with
  | plain h => exact hf
  | param ps r => simp

/-- the inference of the nil terminator computes `NilFor` -/
theorem consTerm_nilFor {env : Env} {o c ct nil : Term} {a : Attr} {l : Bool} {k : Kind} {ov : Option (List Nat)} (ha : NilAttr a l)
    (h : NilFor env o c ct nil) : ∃ n, consTerm (ops env n) ⟨a, some ct, k, ov⟩ [o, c] = .ok (some nil) := by
  cases h with
  | const _ h => exact ⟨0, by simp [consTerm, h]⟩
  | infer ps body r ctx k d ret ty _ hk ht hf hb he hany hp hn =>
    obtain ⟨N, ctx', cts, h1, h2, h3⟩ := typeApp_complete (args := [c]) (doms := [d]) hk ht rfl hb (by
      intro i d' t hd ht
      cases i with
      | zero => simp at hd ht; subst hd; subst ht; exact hf
      | succ i => simp at hd) he (by simpa using hany)
    obtain ⟨n2, h4⟩ := evaluatesTo_congr hn h2
    have g1 := (typeApp_mono (ops_mono env (Nat.le_max_left N n2)) [o, c]).ok h1
    have g3 := (typesOf_mono (ops_mono env (Nat.le_max_left N n2)) [o, c]).ok h3
    have g4 := ((ops_mono env (Nat.le_max_right N n2)).evaluate body ctx').ok h4
    obtain ⟨t0, e0⟩ := typesOf_spec g3 o (by simp)
    obtain ⟨t1, e1⟩ := typesOf_spec g3 c (by simp)
    refine ⟨max N n2, ?_⟩
    have hna : isNAryAttr a = true := by cases ha <;> rfl
    have hpg : paramsGround ctx' ps.children = true := by
      unfold paramsGround
      rw [List.all_eq_true]
      intro p hpm
      obtain ⟨v, h5, h6⟩ := hp p hpm
      rw [← h2 p, h5]
      exact (ground_iff v).mpr h6
    simp [consTerm, kind_node, children_node, hna, e0, e1, Out.bind, g1, hpg, g4, Out.map]

/-- **C18/C15-C17**.  The list operators on closed arguments are computed for the declared operator with its
declared associativity and the nil terminator determined by the first argument. -/
theorem C18_dispatch {env : Env} {f o c ct nil : Term} {a : Attr} {left : Bool} {k : Kind} (rest : List Term)
    (hk : isListLiteralOp k = true) (hk' : k ≠ EVAL_NIL) (ho : Names f o) (hf : ∀ l, f ≠ .lit l)
    (hd : Declared env f a ct) (ha : NilAttr a left) (hn : NilFor env o c ct nil)
    (hg : ∀ x ∈ o :: c :: rest, Closed x) (r : Option Term) :
    OpResult env k (o :: c :: rest) r ↔ Out.ofRes (evalListOp k f nil left (o :: c :: rest)) = .ok r := by
  obtain ⟨kd, ov, hd⟩ := hd
  obtain ⟨n, hn⟩ := consTerm_nilFor (k := kd) (ov := ov) ha hn
  have hany : ((o :: c :: rest).any fun e => !e.ground) = false := by
    rw [List.any_eq_false]
    intro e he
    simp [(closed_iff e).mp (hg e he)]
  have key : (ops env (n+1)).evalOp k (o :: c :: rest) = Out.ofRes (evalListOp k f nil left (o :: c :: rest)) := by
    show opStep env (ops env n) k _ = _
    rw [list_not_special hk, hany]
    simp only [Bool.false_eq_true, if_false, evalValues, allLits_none (names_not_lit ho hf), hk, Bool.not_true]
    unfold evalList
    simp only [argO, List.getElem?_cons_zero, Out.bind]
    have := names_op ho
    simp only [argO] at this
    rw [this]
    simp only [hd, (nilAttr_iff a).mpr ⟨_, ha⟩, Bool.not_true, Bool.false_eq_true, if_false, if_neg hk',
      List.getElem?_cons_succ, List.getElem?_cons_zero, hn, nilAttr_left ha]
  constructor
  · rintro ⟨m, hm⟩
    have h1 := ((ops_mono env (Nat.le_max_left m (n+1))).evalOp k _).ok hm
    rw [← key]
    cases h2 : (ops env (n+1)).evalOp k (o :: c :: rest) with
    | ok r' =>
      have h3 := ((ops_mono env (Nat.le_max_right m (n+1))).evalOp k _).ok h2
      rw [h1] at h3; exact h3.symm
    | ub =>
      rcases (ops_mono env (Nat.le_max_right m (n+1))).evalOp k (o :: c :: rest) with h3 | h3
      · rw [h2] at h3; simp at h3
      · rw [h1, h2] at h3; simp at h3
    | fuel =>
      rw [key] at h2
      cases hh : evalListOp k f nil left (o :: c :: rest) <;> rw [hh] at h2 <;> simp [Out.ofRes] at h2
  · intro h
    exact ⟨n+1, by rw [key, h]⟩

/-- a list operator that returns a value does so as an operation of the language -/
theorem list_value {env : Env} {f o c ct nil v : Term} {a : Attr} {left : Bool} {k : Kind} {rest : List Term}
    (hk : isListLiteralOp k = true) (hk' : k ≠ EVAL_NIL) (ho : Names f o) (hf : ∀ l, f ≠ .lit l)
    (hd : Declared env f a ct) (ha : NilAttr a left) (hn : NilFor env o c ct nil)
    (hg : ∀ x ∈ o :: c :: rest, Closed x) (h : evalListOp k f nil left (o :: c :: rest) = .val v) :
    OpResult env k (o :: c :: rest) (some v) :=
  (C18_dispatch rest hk hk' ho hf hd ha hn hg _).mpr (by rw [h]; rfl)

/-- **C18**.  A list operator on closed arguments does not evaluate if an argument in the position of a list is not
an f-list (`listPositions`: the positions of the list arguments; all applications of `f` are curried). -/
theorem C18_non_list_op {env : Env} {f o c ct nil b : Term} {a : Attr} {left : Bool} {k : Kind}
    (hk : isListLiteralOp k = true) (hk' : k ≠ EVAL_NIL) (ho : Names f o) (hf : ∀ l, f ≠ .lit l)
    (hd : Declared env f a ct) (ha : NilAttr a left) (hn : NilFor env o c ct nil) (hna : NotApp f nil)
    (hg : ∀ x ∈ [o, c, b], Closed x) (i : Nat) (hi : i ∈ listPositions k)
    (hnl : ∀ xs, (if i = 1 then c else b) ≠ if left then llist f nil xs else rlist f nil xs)
    (hc : Curried f (if i = 1 then c else b)) : OpResult env k [o, c, b] none := by
  rw [C18_dispatch [b] hk hk' ho hf hd ha hn hg, C18_non_list k left o c b i hi]
  · rfl
  · cases h : getNAryChildren f nil left (if i = 1 then c else b) with
    | none => rfl
    | some xs =>
      exfalso
      cases left with
      | false => exact hnl xs ((C14_recognised f nil hna _ hc xs).mp h)
      | true =>
        refine hnl xs.reverse ((C14_left_recognised f nil hna _ hc xs.reverse).mp ?_)
        rw [List.reverse_reverse]; exact h

/-- **C18**.  The same for the list operators with one list argument and nothing else. -/
theorem C18_non_list_unary {env : Env} {f o c ct nil : Term} {a : Attr} {left : Bool} {k : Kind}
    (hk : k = EVAL_LIST_LENGTH ∨ k = EVAL_LIST_REV ∨ k = EVAL_LIST_SETOF ∨ k = EVAL_LIST_SINGLETON_ELIM)
    (ho : Names f o) (hf : ∀ l, f ≠ .lit l)
    (hd : Declared env f a ct) (ha : NilAttr a left) (hn : NilFor env o c ct nil) (hna : NotApp f nil)
    (hg : ∀ x ∈ [o, c], Closed x) (hnl : ∀ xs, c ≠ if left then llist f nil xs else rlist f nil xs)
    (hc : Curried f c) : OpResult env k [o, c] none := by
  have h : getNAryChildren f nil left c = none := by
    cases h : getNAryChildren f nil left c with
    | none => rfl
    | some xs =>
      exfalso
      cases left with
      | false => exact hnl xs ((C14_recognised f nil hna _ hc xs).mp h)
      | true =>
        refine hnl xs.reverse ((C14_left_recognised f nil hna _ hc xs.reverse).mp ?_)
        rw [List.reverse_reverse]; exact h
  rcases hk with rfl | rfl | rfl | rfl <;>
    (rw [C18_dispatch [] rfl (by simp) ho hf hd ha hn hg]
     simp [evalListOp, argAt, Res.bind, h, listRev, listSetOf, Out.ofRes])

/-- **C18**.  No list operator evaluates if the operator is not declared with a nil terminator. -/
theorem C18_no_nil (env : Env) {f o : Term} {k : Kind} (args : List Term) (hk : isListLiteralOp k = true) (ho : Names f o)
    (hf : ∀ l, f ≠ .lit l) (hd : ∀ ai, env.appInfo f = some ai → ∀ l, ¬ NilAttr ai.attr l) : OpResult env k (o :: args) none := by
  refine ⟨1, ?_⟩
  show opStep env (ops env 0) k _ = _
  rw [list_not_special hk]
  split
  · rfl
  · simp only [evalValues, allLits_none (names_not_lit ho hf), hk, Bool.not_true, Bool.false_eq_true, if_false]
    unfold evalList
    simp only [argO, List.getElem?_cons_zero, Out.bind]
    have := names_op ho
    simp only [argO] at this
    rw [this]
    simp only
    cases hai : env.appInfo f with
    | none => rfl
    | some ai =>
      have : isListNilAttr ai.attr = false := by
        cases h : isListNilAttr ai.attr with
        | false => rfl
        | true =>
          obtain ⟨l, hl⟩ := (nilAttr_iff _).mp h
          exact absurd hl (hd ai hai l)
      simp [this]

/-- a context built by matching, successful or not, binds parameters of the patterns only -/
theorem matchLoop_only : ∀ (n : Nat) (st vis : List (Term × Term)) (ctx : Ctx) (b : Bool) (ctx' : Ctx),
    matchLoop n st vis ctx = some (b, ctx') → ∀ p v, ctx'.find p = some v → ctx.find p = some v ∨ ∃ r ∈ st, Sub p r.1
  | 0, [], vis, ctx, b, ctx', h, p, v, hp => by simp [matchLoop] at h; exact .inl (h.2 ▸ hp)
  | 0, _ :: _, vis, ctx, b, ctx', h, p, v, hp => by simp [matchLoop] at h
  | n+1, [], vis, ctx, b, ctx', h, p, v, hp => by simp [matchLoop] at h; exact .inl (h.2 ▸ hp)
  | n+1, (x, y) :: st, vis, ctx, b, ctx', h, p, v, hp => by
    have tl : (ctx.find p = some v ∨ ∃ r ∈ st, Sub p r.1) → ctx.find p = some v ∨ ∃ r ∈ (x, y) :: st, Sub p r.1 := by
      rintro (h | ⟨r, h1, h2⟩)
      · exact .inl h
      · exact .inr ⟨r, List.mem_cons_of_mem _ h1, h2⟩
    have ff : some (false, ctx) = some (b, ctx') → ctx.find p = some v := by
      intro h
      simp only [Option.some.injEq, Prod.mk.injEq] at h
      rw [h.2]; exact hp
    rw [matchLoop] at h
    split at h
    · split at h
      · exact tl (matchLoop_only n st _ _ _ _ h p v hp)
      · exact .inl (ff h)
    · split at h
      · exact tl (matchLoop_only n st _ _ _ _ h p v hp)
      · split at h
        · split at h
          · split at h
            · rcases matchLoop_only n st _ _ _ _ h p v hp with h1 | h1
              · rw [find_cons] at h1
                split at h1
                · rename_i hpx
                  exact .inr ⟨(x, y), by simp, hpx ▸ .refl _⟩
                · exact .inl h1
              · exact tl (.inr h1)
            · split at h
              · exact .inl (ff h)
              · exact tl (matchLoop_only n st _ _ _ _ h p v hp)
          · exact .inl (ff h)
        · split at h
          · exact .inl (ff h)
          · rcases matchLoop_only n _ _ _ _ _ h p v hp with h1 | ⟨r, h1, h2⟩
            · exact .inl h1
            · rcases List.mem_append.mp h1 with h1 | h1
              · have := (List.of_mem_zip (a := r.1) (b := r.2) (List.mem_reverse.mp h1)).1
                exact .inr ⟨(x, y), by simp, Sub.of_child (t := x) this h2⟩
              · exact tl (.inr ⟨r, h1, h2⟩)

/-- **C18**.  If the nil terminator has a parameter that does not occur in the argument type of `f`, so that it is not
determined by the argument, no list operator and no `eo::nil` evaluates. -/
theorem C18_undetermined {env : Env} {f o c ps body d ret p : Term} {a : Attr} {left : Bool} {k kt : Kind} {r : List Term}
    (rest : List Term) (hk : isListLiteralOp k = true) (ho : Names f o) (hf : ∀ l, f ≠ .lit l)
    (hd : Declared env f a (.node PARAMETERIZED (ps :: body :: r))) (ha : NilAttr a left)
    (ht : TypeResult env o (some (.node kt [d, ret]))) (hp : p ∈ ps.children) (hnp : ¬ Sub p (argPattern d)) (v : Term) :
    ¬ OpResult env k (o :: c :: rest) (some v) := by
  rintro ⟨n, hn⟩
  obtain ⟨kd, ov, hd⟩ := hd
  cases n with
  | zero => simp [ops] at hn
  | succ n =>
    replace hn : opStep env (ops env n) k (o :: c :: rest) = .ok (some v) := hn
    rw [list_not_special hk] at hn
    split at hn
    · simp at hn
    simp only [evalValues, allLits_none (names_not_lit ho hf), hk, Bool.not_true, Bool.false_eq_true, if_false] at hn
    unfold evalList at hn
    simp only [argO, List.getElem?_cons_zero, Out.bind] at hn
    have hop := names_op ho
    simp only [argO] at hop
    rw [hop] at hn
    simp only [hd, (nilAttr_iff a).mpr ⟨_, ha⟩, Bool.not_true, Bool.false_eq_true, if_false,
      List.getElem?_cons_succ, List.getElem?_cons_zero] at hn
    have hct : ∀ c' nil, consTerm (ops env n) ⟨a, some (.node PARAMETERIZED (ps :: body :: r)), kd, ov⟩ [o, c'] ≠ .ok (some nil) := by
      intro c' nil h
      have hna : isNAryAttr a = true := by cases ha <;> rfl
      simp only [consTerm, kind_node, ne_eq, not_true_eq_false, if_false, hna, Bool.not_true, Bool.false_eq_true, children_node] at h
      obtain ⟨t0, e0, h⟩ := bind_ok h
      cases t0 with
      | none => simp at h
      | some t0 =>
        have := TypeResult.det ht ⟨n, e0⟩
        cases this
        obtain ⟨t1, e1, h⟩ := bind_ok h
        cases t1 with
        | none => simp at h
        | some t1 =>
          obtain ⟨⟨x, ctx⟩, e2, h⟩ := bind_ok h
          simp only at h
          split at h
          · rename_i hpg
            have hpg' : (match ctx.find p with | some v => v.ground | none => false) = true :=
              List.all_eq_true.mp hpg p hp
            cases hfp : ctx.find p with
            | none => rw [hfp] at hpg'; simp at hpg'
            | some w =>
              -- the context binds parameters of the argument type only
              unfold typeApp at e2
              simp only [argO, List.getElem?_cons_zero, Out.bind, e0] at e2
              split at e2
              · simp only [Out.ok.injEq, Prod.mk.injEq] at e2
                rw [← e2.2] at hfp; simp [Ctx.find] at hfp
              · split at e2
                · simp only [Out.ok.injEq, Prod.mk.injEq] at e2
                  rw [← e2.2] at hfp; simp [Ctx.find] at hfp
                · simp only [Term.children, List.dropLast, List.tail_cons] at e2
                  have hpr : ∀ x, appPairs (ops env n) [d] [c'] = .ok x → ∀ q ∈ x.1, q.1 = argPattern d := by
                    intro x hx
                    rw [appPairs] at hx
                    by_cases hq : d.kind = QUOTE_TYPE
                    · rw [if_pos hq] at hx
                      obtain ⟨q, h1, hx2⟩ := bind_ok hx
                      clear hx
                      obtain ⟨rr, rfl⟩ := quote_shape h1 hq
                      obtain ⟨u1, _, hx⟩ := bind_ok hx2
                      obtain ⟨u2, _, hx⟩ := bind_ok hx
                      cases u1 with
                      | none => simp at hx
                      | some u1 =>
                        simp only at hx
                        split at hx
                        · simp only [appPairs, Out.map, Out.ok.injEq] at hx
                          subst hx; simp [argPattern]
                        · simp only [Out.ok.injEq] at hx
                          subst hx; simp
                    · rw [if_neg hq] at hx
                      obtain ⟨u1, _, hx⟩ := bind_ok hx
                      cases u1 with
                      | none => simp at hx
                      | some u1 =>
                        simp only [appPairs, Out.map, Out.ok.injEq] at hx
                        subst hx; simp [argPattern_plain hq]
                  cases hap : appPairs (ops env n) [d] [c'] with
                  | ub => rw [hap] at e2; simp at e2
                  | fuel => rw [hap] at e2; simp at e2
                  | ok x2 =>
                    rw [hap] at e2
                    simp only at e2
                    have hno : ∀ b ctx', matchLoop (Term.sizes (x2.1.map Prod.fst)) x2.1 [] [] = some (b, ctx') → ctx'.find p = none := by
                      intro b ctx' hm
                      cases hz : ctx'.find p with
                      | none => rfl
                      | some z =>
                        rcases matchLoop_only _ _ _ _ _ _ hm p z hz with h1 | ⟨q, h1, h2⟩
                        · simp [Ctx.find] at h1
                        · rw [hpr x2 hap q h1] at h2
                          exact absurd h2 hnp
                    split at e2
                    · simp at e2
                    · rename_i hm
                      simp only [Out.ok.injEq, Prod.mk.injEq] at e2
                      have := hno _ _ hm
                      rw [e2.2, hfp] at this; simp at this
                    · rename_i hm
                      have := hno _ _ hm
                      split at e2
                      · obtain ⟨_, _, e3⟩ := map_ok e2
                        simp only [Prod.mk.injEq] at e3
                        rw [e3.2, hfp] at this; simp at this
                      · simp only [Out.ok.injEq, Prod.mk.injEq] at e2
                        rw [e2.2, hfp] at this; simp at this
          · simp at h
    split at hn
    · exact hct _ _ hn
    · cases hc' : consTerm (ops env n) ⟨a, some (.node PARAMETERIZED (ps :: body :: r)), kd, ov⟩ [o, c] with
      | ub => rw [hc'] at hn; simp at hn
      | fuel => rw [hc'] at hn; simp at hn
      | ok x =>
        cases x with
        | none => rw [hc'] at hn; simp at hn
        | some nil => exact hct _ _ hc'

/-! ### C15, C16 as operations of the language: a right-associative operator `f` written `o` -/

section right
variable {env : Env} {f o ct nil : Term} {a : Attr} (ho : Names f o) (hf : ∀ l, f ≠ .lit l)
  (hd : Declared env f a ct) (ha : NilAttr a false) (hna : NotApp f nil)
include ho hf hd ha hna

theorem C15_op_cons (x : Term) (ys : List Term) (hn : NilFor env o x ct nil) (hg : ∀ t ∈ [o, x, rlist f nil ys], Closed t) :
    OpResult env EVAL_CONS [o, x, rlist f nil ys] (some (rlist f nil (x :: ys))) :=
  list_value rfl (by simp) ho hf hd ha hn hg (C15_cons hna o x ys)

theorem C15_op_concat (xs ys : List Term) (hn : NilFor env o (rlist f nil xs) ct nil)
    (hg : ∀ t ∈ [o, rlist f nil xs, rlist f nil ys], Closed t) :
    OpResult env EVAL_LIST_CONCAT [o, rlist f nil xs, rlist f nil ys] (some (rlist f nil (xs ++ ys))) :=
  list_value rfl (by simp) ho hf hd ha hn hg (C15_concat hna o xs ys)

theorem C15_op_len (xs : List Term) (hn : NilFor env o (rlist f nil xs) ct nil) (hl : xs.length < 2^32)
    (hg : ∀ t ∈ [o, rlist f nil xs], Closed t) :
    OpResult env EVAL_LIST_LENGTH [o, rlist f nil xs] (some (.lit (.num xs.length))) :=
  list_value rfl (by simp) ho hf hd ha hn hg (C15_len hna o xs hl)

/-- the value at a position inside the list, nothing elsewhere -/
theorem C15_op_nth (xs : List Term) (i : Int) (hn : NilFor env o (rlist f nil xs) ct nil) (hl : xs.length ≤ 2^32)
    (hg : ∀ t ∈ [o, rlist f nil xs, .lit (.num i)], Closed t) :
    OpResult env EVAL_LIST_NTH [o, rlist f nil xs, .lit (.num i)] (if 0 ≤ i then xs[i.toNat]? else none) := by
  rw [C18_dispatch _ rfl (by simp) ho hf hd ha hn hg, C15_nth hna o xs hl i]
  by_cases h : 0 ≤ i ∧ i < xs.length
  · rw [dif_pos h, if_pos h.1, List.getElem?_eq_getElem (by omega)]; rfl
  · rw [dif_neg h]
    by_cases h0 : 0 ≤ i
    · rw [if_pos h0, List.getElem?_eq_none (by omega)]; rfl
    · rw [if_neg h0]; rfl

theorem C15_op_find (x : Term) (xs : List Term) (hn : NilFor env o (rlist f nil xs) ct nil) (hl : xs.length ≤ 2^32)
    (hg : ∀ t ∈ [o, rlist f nil xs, x], Closed t) :
    (∀ i, FirstAt x xs i → OpResult env EVAL_LIST_FIND [o, rlist f nil xs, x] (some (.lit (.num i)))) ∧
    (x ∉ xs → OpResult env EVAL_LIST_FIND [o, rlist f nil xs, x] (some (.lit (.num (-1))))) :=
  ⟨fun i hi => list_value rfl (by simp) ho hf hd ha hn hg (C15_find_some hna o x xs hl i hi),
   fun hx => list_value rfl (by simp) ho hf hd ha hn hg (C15_find_none hna o x xs hx)⟩

theorem C15_op_rev (xs : List Term) (hn : NilFor env o (rlist f nil xs) ct nil) (hg : ∀ t ∈ [o, rlist f nil xs], Closed t) :
    OpResult env EVAL_LIST_REV [o, rlist f nil xs] (some (rlist f nil xs.reverse)) :=
  list_value rfl (by simp) ho hf hd ha hn hg (C15_rev hna o xs)

theorem C15_op_erase (x : Term) (xs : List Term) (hn : NilFor env o (rlist f nil xs) ct nil)
    (hg : ∀ t ∈ [o, rlist f nil xs, x], Closed t) :
    OpResult env EVAL_LIST_ERASE [o, rlist f nil xs, x] (some (rlist f nil (eraseFirst x xs))) ∧
    OpResult env EVAL_LIST_ERASE_ALL [o, rlist f nil xs, x] (some (rlist f nil (xs.filter (fun y => decide (y ≠ x))))) :=
  ⟨list_value rfl (by simp) ho hf hd ha hn hg (C15_erase hna o x xs),
   list_value rfl (by simp) ho hf hd ha hn hg (C15_erase_all hna o x xs)⟩

theorem C15_op_setof (xs : List Term) (hn : NilFor env o (rlist f nil xs) ct nil) (hg : ∀ t ∈ [o, rlist f nil xs], Closed t) :
    OpResult env EVAL_LIST_SETOF [o, rlist f nil xs] (some (rlist f nil (setOf xs))) :=
  list_value rfl (by simp) ho hf hd ha hn hg (C15_setof hna o xs)

theorem C18_op_singleton_elim (xs : List Term) (hn : NilFor env o (rlist f nil xs) ct nil)
    (hg : ∀ t ∈ [o, rlist f nil xs], Closed t) :
    OpResult env EVAL_LIST_SINGLETON_ELIM [o, rlist f nil xs]
      (some (match xs with | [x] => x | _ => rlist f nil xs)) := by
  refine list_value rfl (by simp) ho hf hd ha hn hg ?_
  rw [C18_singleton_elim hna o xs]
  split
  · rfl
  · rename_i h
    split
    · exact absurd rfl (h _)
    · rfl

theorem C16_op (xs ys : List Term) (hn : NilFor env o (rlist f nil xs) ct nil) (hx : xs.length < 2^32) (hy : ys.length < 2^32)
    (hg : ∀ t ∈ [o, rlist f nil xs, rlist f nil ys], Closed t) :
    OpResult env EVAL_LIST_MINCLUDE [o, rlist f nil xs, rlist f nil ys]
      (some (boolVal (decide (∀ x ∈ xs, mult x xs ≤ mult x ys)))) ∧
    (∃ b, OpResult env EVAL_LIST_MEQ [o, rlist f nil xs, rlist f nil ys] (some (boolVal b)) ∧ (b = true ↔ xs.Perm ys)) ∧
    OpResult env EVAL_LIST_DIFF [o, rlist f nil xs, rlist f nil ys] (some (rlist f nil (mdiff xs ys))) ∧
    OpResult env EVAL_LIST_INTER [o, rlist f nil xs, rlist f nil ys] (some (rlist f nil (minter xs ys))) := by
  obtain ⟨b, h1, h2⟩ := C16_meq hna o xs ys hx hy
  exact ⟨list_value rfl (by simp) ho hf hd ha hn hg (C16_minclude hna o xs ys hx hy),
    ⟨b, list_value rfl (by simp) ho hf hd ha hn hg h1, h2⟩,
    list_value rfl (by simp) ho hf hd ha hn hg (C16_diff hna o xs ys hy),
    list_value rfl (by simp) ho hf hd ha hn hg (C16_inter hna o xs ys hy)⟩
end right

/-! ### Calls of programs and operators when a term is built -/

/-- **C29**.  Building an application of a program evaluates it; it stays as written if no case applies. -/
theorem C29_application {env : Env} {args : List Term} {n : Nat} {v : Term}
    (h : evaluateProgramApp env (ops env n) args = .ok v) :
    (ProgResult env args none ∧ v = .node APPLY args) ∨
    ∃ body ctx, ProgResult env args (some (body, ctx)) ∧ EvaluatesTo env ctx body v := by
  unfold evaluateProgramApp at h
  obtain ⟨r, h1, h2⟩ := bind_ok h
  cases r with
  | none => simp only [Out.ok.injEq] at h2; exact .inl ⟨h1, h2.symm⟩
  | some r => exact .inr ⟨r.1, r.2, h1, n, h2⟩

/-- **C31**.  Building an application of a builtin operator gives its value, or the term as written if it does not
evaluate. -/
theorem C31_built {env : Env} {k : Kind} {args : List Term} {n : Nat} {v : Term}
    (h : evaluateLiteralOp (ops env n) k args = .ok v) :
    OpResult env k args (some v) ∨ (OpResult env k args none ∧ v = .node k args) := by
  unfold evaluateLiteralOp at h
  obtain ⟨r, h1, h2⟩ := map_ok h
  cases r with
  | none => exact .inr ⟨⟨n, h1⟩, h2.symm⟩
  | some r => simp only [Option.getD_some] at h2; subst h2; exact .inl ⟨n, h1⟩

/-! ### Example: `or : (-> Bool Bool Bool) :right-assoc-nil false` and a polymorphic `cat : (-> T T T)` whose nil
terminator is `(empty T)` -/

def tyP : Term := .sym PARAM 20
def fCat : Term := .sym CONST 21
def tEmpty : Term := .sym CONST 22
def catNil : Term := .node PARAMETERIZED [.node TUPLE [tyP], .node APPLY [tEmpty, tyP]]
def exOpEnv : Env := { exTyEnv with
  symType := fun t => if t = fCat then some (.node FUNCTION_TYPE [tyP, .node FUNCTION_TYPE [tyP, tyP]])
    else if t = tyP then some tType
    else if t = tEmpty then some (.node FUNCTION_TYPE [tType, tType]) else exTyEnv.symType t
  appInfo := fun t => if t = fOr then some ⟨.RIGHT_ASSOC_NIL, some tNil, NONE, none⟩
    else if t = fCat then some ⟨.RIGHT_ASSOC_NIL, some catNil, NONE, none⟩ else none }

example : OpResult exOpEnv EVAL_LIST_REV [fOr, rlist fOr tNil [tA, tB]] (some (rlist fOr tNil [tB, tA])) := by
  refine C15_op_rev (a := .RIGHT_ASSOC_NIL) (.plain (by decide)) (by simp [fOr]) ⟨NONE, none, rfl⟩ .right notApp_ex [tA, tB]
    (.const _ (by decide)) ?_
  intro t ht
  rw [closed_iff]
  simp only [List.mem_cons, List.not_mem_nil, or_false] at ht
  rcases ht with rfl | rfl <;> rfl

/-- the terminator of `cat` at type `Int` is `(empty Int)` -/
theorem exCatNil : NilFor exOpEnv fCat cA catNil (.node APPLY [tEmpty, tyInt]) := by
  refine .infer _ _ [] [(tyP, tyInt)] FUNCTION_TYPE tyP (.node FUNCTION_TYPE [tyP, tyP]) (.node FUNCTION_TYPE [tyInt, tyInt]) _
    (.inl rfl) ⟨1, rfl⟩ (.plain _ _ (by decide) ⟨1, rfl⟩) ?_ ⟨20, rfl⟩ ?_ ?_ ⟨20, rfl⟩
  · intro p
    have hs : ∀ q, Sub q (argPattern tyP) ↔ q = tyP := by
      intro q
      constructor
      · intro h
        rcases h.inv with rfl | ⟨c, hc, _⟩
        · rfl
        · simp [argPattern, tyP, Term.children] at hc
      · rintro rfl; exact .refl _
    simp only [find_cons, List.mem_cons, List.not_mem_nil, or_false, exists_eq_left, hs]
    constructor
    · rintro ⟨v, hv⟩
      split at hv
      · rename_i h; subst h; exact ⟨⟨rfl, rfl⟩, rfl⟩
      · simp [Ctx.find] at hv
    · rintro ⟨_, rfl⟩; exact ⟨tyInt, by simp⟩
  · intro s hs
    rcases hs.inv with rfl | ⟨c, hc, _⟩
    · simp [IsAny, tyP, argPattern, Term.kind]
    · simp [argPattern, tyP, Term.children] at hc
  · intro p hp
    simp only [Term.children, List.mem_cons, List.not_mem_nil, or_false] at hp
    subst hp
    exact ⟨tyInt, by rfl, (ground_iff tyInt).mp rfl⟩

example : OpResult exOpEnv EVAL_CONS [fCat, cA, .node APPLY [tEmpty, tyInt]] (some (bin fCat cA (.node APPLY [tEmpty, tyInt]))) := by
  refine C15_op_cons (nil := .node APPLY [tEmpty, tyInt]) (a := .RIGHT_ASSOC_NIL) (.plain (by decide)) (by simp [fCat])
    ⟨NONE, none, rfl⟩ .right ?_ cA [] exCatNil ?_
  · intro x y r1 r2 h; simp [tEmpty] at h
  · intro t ht
    rw [closed_iff]
    simp only [List.mem_cons, List.not_mem_nil, or_false, rlist] at ht
    rcases ht with rfl | rfl | rfl <;> rfl

end Ethos.Props
