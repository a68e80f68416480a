import Verif.Spec.Attributes
import Verif.Props.Param
import Verif.Props.Flags
import Verif.Props.Elab
import Verif.Props.History
import Verif.Props.Desugar
import Verif.Lemmas.CmdExample
/-
C81: the attributes of declared constants.
-/
namespace Ethos.Props
open Ethos Kind Ethos.Spec

section
variable {b : Env} {n n0 : Nat} {es es' : List Event} {st st' : State}

theorem parseAttr_says {st0 : State} {a : Stack} {s s' : State} {x : SAttr} {t : Option Term} (h : On st0 a s) (hp : parseAttr b n x s = .ok (s', t)) :
    On st0 a s' ∧ AttrSays (envAt b st0) (visible a s) x (x.attr, t) (visible a s') := by
  obtain ⟨k, e, e'⟩ := x
  simp only [parseAttr] at hp
  split at hp
  · cases hp; exact ⟨h, .plain _ _ (.inl rfl)⟩
  · cases hp; exact ⟨h, .plain _ _ (.inr rfl)⟩
  · simp only [Run.bind_ok, Run.map_ok] at hp
    obtain ⟨⟨s1, t1⟩, h1, ⟨s2, t2⟩, h2, h3⟩ := hp
    cases h3
    obtain ⟨o1, e1⟩ := parseExpr_elab _ h h1
    obtain ⟨o2, e2⟩ := parseExpr_elab _ o1 h2
    exact ⟨o2, .pair _ _ _ _ _ _ _ e1 e2⟩
  · simp only [Run.ite_err', Run.map_ok] at hp
    obtain ⟨hk, ⟨s1, t1⟩, h1, h3⟩ := hp
    cases h3
    obtain ⟨o1, e1⟩ := parseExpr_elab _ h h1
    refine ⟨o1, .arg _ _ _ _ _ ?_ ?_ ?_ ?_ e1⟩ <;> rcases hk with hk | hk | hk | hk | hk | hk | hk | hk <;> subst hk <;> decide
  · cases hp

theorem parseAttrList_say {st0 : State} {a : Stack} : ∀ (as : List SAttr) {s s' : State} {l : List (Attr × Option Term)}, On st0 a s →
    parseAttrList b n as s = .ok (s', l) → On st0 a s' ∧ AttrsSay (envAt b st0) (visible a s) as l (visible a s')
  | [], s, s', l, h, hp => by simp only [parseAttrList] at hp; cases hp; exact ⟨h, .nil _⟩
  | x :: as, s, s', l, h, hp => by
    simp only [parseAttrList, Run.bind_ok, Run.map_ok] at hp
    obtain ⟨⟨s1, t⟩, h1, ⟨s2, r⟩, h2, h3⟩ := hp
    cases h3
    obtain ⟨o1, e1⟩ := parseAttr_says h h1
    obtain ⟨o2, e2⟩ := parseAttrList_say as o1 h2
    exact ⟨o2, .cons _ _ _ _ _ _ _ e1 e2⟩

theorem says_order {E : Vis → Env} {v v' : Vis} {x : SAttr} {p : Attr × Option Term} (h : AttrSays E v x p v') : p.1 ∈ attrOrder := by
  cases h with
  | plain k hk => rcases hk with rfl | rfl <;> simp [attrOrder]
  | arg => assumption
  | pair => simp [attrOrder]

theorem say_order {E : Vis → Env} {v v' : Vis} {as : List SAttr} {l : List (Attr × Option Term)} (h : AttrsSay E v as l v') : ∀ p ∈ l, p.1 ∈ attrOrder := by
  induction h with
  | nil => simp
  | cons v a p v1 as l v2 h1 _ ih =>
    intro q hq
    rcases List.mem_cons.1 hq with rfl | hq
    · exact says_order h1
    · exact ih q hq

theorem say_nil {E : Vis → Env} {v v' : Vis} {as : List SAttr} {l : List (Attr × Option Term)} (h : AttrsSay E v as l v') : as = [] ↔ l = [] := by
  cases h <;> simp

theorem order_idx : ∀ k ∈ attrOrder, ∀ k' ∈ attrOrder, (k.ctorIdx ≤ k'.ctorIdx ↔ k = k' ∨ Precedes k k') ∧ (¬ k.ctorIdx ≤ k'.ctorIdx ↔ Precedes k' k) ∧ k ≠ .NONE := by
  unfold Precedes
  decide

theorem order_trans {i j k : Attr} (h1 : Precedes i j) (h2 : Precedes j k) : Precedes i k := Nat.lt_trans h1 h2

theorem choose_counts : ∀ (l : List (Attr × Option Term)), (∀ p ∈ l, p.1 ∈ attrOrder) → l ≠ [] → Counts l (chooseAttr l)
  | [], _, h => absurd rfl h
  | p :: l, ho, _ => by
    have hc : chooseAttr (p :: l) = if (chooseAttr l).1 = .NONE ∨ p.1.ctorIdx ≤ (chooseAttr l).1.ctorIdx then p else chooseAttr l := rfl
    have hp := ho p (List.mem_cons_self ..)
    have hl : ∀ q ∈ l, q.1 ∈ attrOrder := fun q hq => ho q (List.mem_cons_of_mem _ hq)
    rw [hc]
    by_cases he : l = []
    · subst he
      rw [if_pos (.inl rfl)]
      exact ⟨[], [], rfl, by simp, by simp⟩
    · obtain ⟨l1, l2, e1, e2, e3⟩ := choose_counts l hl he
      have hm : chooseAttr l ∈ l := by
        have : chooseAttr l ∈ l1 ++ chooseAttr l :: l2 := by simp
        rwa [← e1] at this
      obtain ⟨i1, i2, i3⟩ := order_idx _ hp _ (hl _ hm)
      have hn : (chooseAttr l).1 ≠ .NONE := (order_idx _ (hl _ hm) _ hp).2.2
      split
      · rename_i hle
        have hle := i1.1 (hle.resolve_left hn)
        refine ⟨[], l, rfl, by simp, ?_⟩
        intro q hq
        rw [e1] at hq
        rcases List.mem_append.1 hq with hq | hq
        · rcases hle with hle | hle
          · rw [hle]; exact .inr (e2 q hq)
          · exact .inr (order_trans hle (e2 q hq))
        · rcases List.mem_cons.1 hq with rfl | hq
          · rcases hle with hle | hle
            · exact .inl hle.symm
            · exact .inr hle
          · rcases hle with hle | hle <;> rcases e3 q hq with h | h
            · exact .inl (h.trans hle.symm)
            · rw [hle]; exact .inr h
            · rw [h]; exact .inr hle
            · exact .inr (order_trans hle h)
      · rename_i hle
        have hlt := i2.1 fun h => hle (.inr h)
        refine ⟨p :: l1, l2, by rw [List.cons_append, ← e1], ?_, e3⟩
        intro q hq
        rcases List.mem_cons.1 hq with rfl | hq
        · exact hlt
        · exact e2 q hq

/-- the attribute that counts is unique -/
theorem C81_unique {l : List (Attr × Option Term)} {p q : Attr × Option Term} (hp : Counts l p) (hq : Counts l q) : p = q := by
  obtain ⟨l1, l2, e1, e2, e3⟩ := hp
  obtain ⟨m1, m2, f1, f2, f3⟩ := hq
  have irr : ∀ k, ¬ Precedes k k := fun k h => Nat.lt_irrefl _ h
  rw [e1] at f1
  rcases List.append_eq_append_iff.1 f1 with ⟨as, h1, h2⟩ | ⟨as, h1, h2⟩
  · cases as with
    | nil => simp only [List.nil_append, List.cons.injEq] at h2; exact h2.1
    | cons x as =>
      simp only [List.cons_append, List.cons.injEq] at h2
      obtain ⟨rfl, h2⟩ := h2
      have h3 := f2 p (by rw [h1]; simp)
      rcases e3 q (by rw [h2]; simp) with h | h
      · rw [h] at h3; exact absurd h3 (irr _)
      · exact absurd (order_trans h h3) (irr _)
  · cases as with
    | nil => simp only [List.nil_append, List.cons.injEq] at h2; exact h2.1.symm
    | cons x as =>
      simp only [List.cons_append, List.cons.injEq] at h2
      obtain ⟨rfl, h2⟩ := h2
      have h3 := e2 q (by rw [h1]; simp)
      rcases f3 p (by rw [h2]; simp) with h | h
      · rw [h] at h3; exact absurd h3 (irr _)
      · exact absurd (order_trans h h3) (irr _)

theorem abstracts_of {c : Option Term} (h : ∀ t, c = some t → ParamsAreLeaves t) : Abstracts c (attrCons c) := by
  cases c with
  | none => exact .none
  | some t =>
    simp only [attrCons, Option.map_some]
    cases hg : t.ground with
    | true => exact .ground t ((ground_iff t).1 hg)
    | false =>
      obtain ⟨r, h1, h2, h3⟩ := C22_variables [t] (by simpa using h t rfl)
      rw [h1]
      refine .params t r ?_ h2 fun p => by simpa using h3 p
      refine Classical.byContradiction fun hn => ?_
      have : t.ground = true := (ground_iff t).2 fun s hs => ⟨fun hp => hn ⟨s, hs, .inl hp⟩, fun hp => hn ⟨s, hs, .inr hp⟩⟩
      rw [hg] at this
      cases this

/-- attributes are those recorded -/
theorem attributed_iff {f : Term} {k : Attr} {c : Option Term} (hk : k ≠ .NONE) :
    Attributed (st.env b) f k c ↔ ∃ o, st.decls.info f = some ⟨k, c, NONE, o⟩ := by
  simp only [Attributed, State.env, Decls.appInfo]
  constructor
  · rintro ⟨o, h1⟩
    split at h1
    · rename_i aj hj
      obtain ⟨k', c', k'', o'⟩ := aj
      cases h1
      exact ⟨o', hj⟩
    · cases h1
      exact absurd rfl hk
    · cases h1
  · rintro ⟨o, h1⟩
    rw [h1]
    exact ⟨_, rfl⟩

theorem unattributed_of {f : Term} (h : st.decls.info f = none) : Unattributed (st.env b) f := by
  intro ai h1
  simp only [State.env, Decls.appInfo, h] at h1
  split at h1
  · rename_i h2 ; cases h2
  · cases h1; exact ⟨rfl, rfl⟩
  · cases h1

/-- what `declare` does to a symbol that has no attribute yet -/
theorem declare_attr {x : Name} {ty : Term} {ck : Attr} {c : Option Term} {t : Term} (hf : st.decls.info (.sym CONST st.next) = none)
    (h : declare st x ty ck c = .ok (st', t)) : t = .sym CONST st.next ∧ st'.symType t = some ty ∧ (∀ u, u ≠ t → st'.decls.info u = st.decls.info u) ∧
      (ck = .NONE → st'.decls.info t = none) ∧ (ck ≠ .NONE → st'.decls.info t = some ⟨ck, c, NONE, none⟩) ∧ st'.scope = st.scope := by
  simp only [declare] at h
  split at h
  · rename_i hk
    cases h
    exact ⟨rfl, by simp [State.mkSymbol], fun _ _ => rfl, fun _ => hf, fun h => absurd hk h, rfl⟩
  · rename_i hk
    simp only [Run.ite_err'] at h
    obtain ⟨_, h⟩ := h
    cases h
    refine ⟨rfl, by simp [State.mkSymbol], fun u hu => ?_, fun h => absurd h hk, fun _ => ?_, rfl⟩
    · have hu' : u ≠ .sym CONST st.next := hu
      simp [Decls.markConstructorKind, State.mkSymbol, hf, hu']
    · simp [Decls.markConstructorKind, State.mkSymbol, hf]

/-- **C81**.  An accepted declaration of a constant with the name `x`, the type `ty` and attributes makes a new symbol of the type that `ty` denotes
and binds `x` to it.  Without attributes it has none, and else the one that counts, with its argument, abstracted over the parameters in it.  No other
term gets or loses an attribute. -/
theorem C81_declared (hb : BaseOk b n0) (hr : .cmd .reset ∉ es) (h : replay b n es (State.init b n0) = .ok st) {x : Name} {ty : SExp} {as : List SAttr}
    (hx : exec b n st (.declareConst x ty as) = .ok st') :
    ∃ a T v l v' i, Shows st a ∧ Elab (envAt b st) (visible a st) ty T v ∧ AttrsSay (envAt b st) v as l v' ∧
      st.next ≤ i ∧ st'.scope.get x = some (.sym CONST i) ∧ st'.symType (.sym CONST i) = some T ∧
      (as = [] → Unattributed (st'.env b) (.sym CONST i)) ∧
      (as ≠ [] → ∃ p c, Counts l p ∧ Abstracts p.2 c ∧ Attributed (st'.env b) (.sym CONST i) p.1 c) ∧
      ∀ f k c, f ≠ .sym CONST i → k ≠ .NONE → (Attributed (st'.env b) f k c ↔ Attributed (st.env b) f k c) := by
  obtain ⟨a, _, ht⟩ := replay_table es hr (init_table b n0) h
  obtain ⟨m, _, F⟩ := Fresh.replay hb es (Fresh.init hb) h
  simp only [exec, parseAttrs, Run.bind_ok, Run.map_ok] at hx
  obtain ⟨⟨s1, T⟩, h1, ⟨s2, ck, c⟩, ⟨⟨s3, l⟩, h2, h3⟩, ⟨s4, t⟩, h4, rfl⟩ := hx
  obtain ⟨rfl, rfl, rfl⟩ : s3 = s2 ∧ (chooseAttr l).1 = ck ∧ attrCons (chooseAttr l).2 = c := by
    simpa only [Prod.mk.injEq] using h3
  have h4 : declare s3 x T (chooseAttr l).1 (attrCons (chooseAttr l).2) = .ok (s4, t) := h4
  obtain ⟨e', T', h5, h6⟩ := parseType_cases h1
  obtain ⟨rfl, rfl⟩ := h6 rfl
  obtain ⟨o1, e1⟩ := parseExpr_elab _ (On.refl ht) h5
  obtain ⟨o2, e2⟩ := parseAttrList_say as o1 h2
  obtain ⟨F1, _⟩ := (freshWorld hb).parseExpr (d := 0) _ F h5
  obtain ⟨F2, pl⟩ := (freshWorld hb).parseAttrList (d := 0) as F1 h2
  have hn : s3.next = st.next := by rw [o2.same]
  have hd : s3.decls = st.decls := by rw [o2.same]
  have hi : s3.decls.info (.sym CONST s3.next) = none := (F2.noInfo hb (k := CONST) (i := s3.next) (by simp) (by rw [F2.next]; exact Nat.le_refl _)).1
  obtain ⟨rfl, q1, q2, q3, q4, q5⟩ := declare_attr hi h4
  refine ⟨a, T', _, l, _, s3.next, shows_of ht, e1, e2, by rw [hn]; exact Nat.le_refl _, bind_get _ _ _, q1, ?_, ?_, ?_⟩
  · intro he
    obtain rfl := (say_nil e2).1 he
    exact unattributed_of (st := s4.bind x _) (q3 rfl)
  · intro hne
    have hl : l ≠ [] := fun h => hne ((say_nil e2).2 h)
    have hc := choose_counts l (say_order e2) hl
    have hm : chooseAttr l ∈ l := by
      obtain ⟨l1, l2, e, _⟩ := hc
      have : chooseAttr l ∈ l1 ++ chooseAttr l :: l2 := by simp
      rwa [← e] at this
    have ho := say_order e2 _ hm
    have hk := (order_idx _ ho _ ho).2.2
    refine ⟨_, _, hc, abstracts_of fun t ht => Built.leaves (BaseOk.ownSym hb) rfl ((pl _ hm).2 t ht), ?_⟩
    exact (attributed_iff (st := s4.bind x _) hk).2 ⟨_, q4 hk⟩
  · intro f k c hf hk
    rw [attributed_iff (st := s4.bind x _) hk, attributed_iff hk]
    show (∃ o, s4.decls.info f = some _) ↔ _
    rw [q2 f hf, hd]

/-- attributes are never lost or changed, whatever happens later -/
theorem C81_forever {f : Term} {k : Attr} {c : Option Term} (hk : k ≠ .NONE) (h : Attributed (st.env b) f k c) (hr : replay b n es st = .ok st') :
    Attributed (st'.env b) f k c := by
  rw [attributed_iff hk] at *
  obtain ⟨o, h1⟩ := h
  exact ⟨o, (C42_history hr).2.1 f _ h1 hk⟩

/-- so a constant, as long as it is not one of several meanings of a name, is applied as its attribute says, C23: for example, an operator with
`:right-assoc-nil` and a terminator without parameters makes lists. -/
theorem C81_applied {f : Term} {k : Attr} {c : Option Term} (hk : k ≠ .NONE) (h : Attributed (st.env b) f k c) (hr : replay b n es st = .ok st')
    (hm : st'.scope.mark f = none) : HasAttr (st'.env b) f k c ∧ (∀ args t, AppForm (st'.env b) f k c args t → Denotes (st'.env b) f args t) ∧
      ∀ nil, k = .RIGHT_ASSOC_NIL → c = some nil → nil.kind ≠ PARAMETERIZED → ∀ t ts, (∀ u ∈ t :: ts, ¬ IsListParam (st'.env b) u) →
        Denotes (st'.env b) f (t :: ts) (rlist f nil (t :: ts)) := by
  have h1 := C81_forever hk h hr
  rw [attributed_iff hk] at h1
  obtain ⟨o, h1⟩ := h1
  have h2 : HasAttr (st'.env b) f k c := by
    show (st'.env b).appInfo f = _
    simp only [State.env, Decls.appInfo, h1, hm]
  refine ⟨h2, fun args t h3 => C23_desugar h2 h3, ?_⟩
  rintro nil rfl rfl hn t ts hl
  exact C24_list h2 (.known nil (.const nil hn)) hl

/-- `(declare-parameterized-const x (…) ty …)`: the type and the attributes are read where the parameters are visible.  If there is an attribute, the
constant has the one that counts, as above. -/
theorem C81_parameterized (hb : BaseOk b n0) (hr : .cmd .reset ∉ es) (h : replay b n es (State.init b n0) = .ok st) {x : Name} {ps : List SParam} {ty : SExp}
    {as : List SAttr} (hx : exec b n st (.declareParam x ps ty as) = .ok st') :
    ∃ s1 vs a T v l v' i, bindParams b n true ps st.push = .ok (s1, vs) ∧ Shows s1 a ∧ Elab (envAt b s1) (visible a s1) ty T v ∧
      AttrsSay (envAt b s1) v as l v' ∧ st.next ≤ i ∧ st'.scope.get x = some (.sym CONST i) ∧
      (as ≠ [] → ∃ p c, Counts l p ∧ Abstracts p.2 c ∧ Attributed (st'.env b) (.sym CONST i) p.1 c) := by
  obtain ⟨a0, _, ht⟩ := replay_table es hr (init_table b n0) h
  obtain ⟨m, _, F⟩ := Fresh.replay hb es (Fresh.init hb) h
  simp only [exec, execDeclareParam, Run.bind_ok, Run.map_ok] at hx
  obtain ⟨⟨s1, vs⟩, h1, ⟨s2, rt⟩, h2, ⟨s3, ck, c⟩, h3, tt, h4, ⟨s5, ty', ck'⟩, h5, e, h6, ⟨s7, u⟩, h7, s8, h8, rfl⟩ := hx
  simp only [parseAttrs, Run.map_ok] at h3
  obtain ⟨⟨s3', l⟩, h3, h9⟩ := h3
  obtain ⟨rfl, rfl, rfl⟩ : s3' = s3 ∧ (chooseAttr l).1 = ck ∧ attrCons (chooseAttr l).2 = c := by
    simpa only [Prod.mk.injEq] using h9
  obtain ⟨t1, _, _⟩ := bindParams_table (a := a0) ps (y := []) (refines_push ht) h1
  obtain ⟨e', T', h10, h11⟩ := parseType_cases h2
  obtain ⟨rfl, rfl⟩ := h11 rfl
  obtain ⟨o1, e1⟩ := parseExpr_elab _ (On.refl t1) h10
  obtain ⟨o2, e2⟩ := parseAttrList_say as o1 h3
  have W := freshWorld hb
  obtain ⟨m1, _, i1, p1⟩ := W.bindParams (d := 0) _ (W.push (d := 0) F) h1
  obtain ⟨F2, _⟩ := W.parseExpr (d := 0) _ i1 h10
  obtain ⟨F3, pl⟩ := W.parseAttrList (d := 0) as F2 h3
  have N := nextFrame
  have hnx : st.next ≤ s5.next :=
    N.trans (N.push st) (N.trans (N.bindParams _ h1) (N.trans (N.parseType h2) (N.trans (N.parseAttrList _ h3) (N.disambiguate h5))))
  obtain ⟨_, hu⟩ := declare_ok h7
  refine ⟨s1, vs, _, T', _, l, _, s5.next, h1, shows_of t1, e1, e2, hnx, by rw [bind_get]; exact congrArg some hu, ?_⟩
  intro hne
  have hl : l ≠ [] := fun h => hne ((say_nil e2).2 h)
  have hc := choose_counts l (say_order e2) hl
  have hm : chooseAttr l ∈ l := by
    obtain ⟨l1, l2, e, _⟩ := hc
    have : chooseAttr l ∈ l1 ++ chooseAttr l :: l2 := by simp
    rwa [← e] at this
  have ho := say_order e2 _ hm
  have hk := (order_idx _ ho _ ho).2.2
  have h5 : disambiguate b n s3' x tt.1 tt.2 (chooseAttr l).1 = .ok (s5, ty', ck') := h5
  have hd : s5 = s3' ∧ ck' = (chooseAttr l).1 := by
    simp only [disambiguate] at h5
    split at h5
    · cases h5; exact ⟨rfl, rfl⟩
    · rw [if_pos (.inl hk)] at h5
      cases h5
  obtain ⟨rfl, rfl⟩ := hd
  have h6 : opaqueType ty' tt.2 (chooseAttr l).1 (attrCons (chooseAttr l).2) = .ok e := h6
  have he : e = (ty', (chooseAttr l).1, attrCons (chooseAttr l).2) := by
    simp only [opaqueType] at h6
    split at h6
    · cases h6; rfl
    · cases h6
  subst he
  have hi : s5.decls.info (.sym CONST s5.next) = none := (F3.noInfo hb (k := CONST) (i := s5.next) (by simp) (by rw [F3.next]; exact Nat.le_refl _)).1
  obtain ⟨_, _, _, _, q4, _⟩ := declare_attr hi h7
  have hp : s8.decls = s7.decls := by
    simp only [State.pop, Run.map_ok] at h8
    obtain ⟨sc, _, rfl⟩ := h8
    rfl
  refine ⟨_, _, hc, abstracts_of fun t ht => Built.leaves (BaseOk.ownSym hb) rfl ((pl _ hm).2 t ht), ?_⟩
  have hq : (s8.bind x u).decls.info (.sym CONST s5.next) = some ⟨(chooseAttr l).1, attrCons (chooseAttr l).2, NONE, none⟩ := by
    show s8.decls.info _ = _
    rw [hp, ← hu]
    exact q4 hk
  exact (attributed_iff (st := s8.bind x u) hk).2 ⟨_, hq⟩

end

/-! ### Examples -/

/-- two attributes: `:right-assoc-nil` takes precedence over `:chainable`, wherever it is written -/
def twoAttrs : List Cmd := [.declareConst (nm "and") (ap "->" [.bool, .bool, .bool]) [⟨.CHAINABLE, some (sy "true"), none⟩, ⟨.RIGHT_ASSOC_NIL, some (sy "true"), none⟩]]

example : ((exRun twoAttrs).map fun st => ((st.env exB).appInfo (.sym CONST 10)).map fun ai => (ai.attr, ai.cons)) =
    .ok (some (.RIGHT_ASSOC_NIL, some tTrue)) := by decide +kernel

/-- the conditions of `C81_declared` are met, and the one that counts is the second one -/
example : ∃ st', exec exB 10 (State.init exB 10) (.declareConst (nm "and") (ap "->" [.bool, .bool, .bool])
      [⟨.CHAINABLE, some (sy "true"), none⟩, ⟨.RIGHT_ASSOC_NIL, some (sy "true"), none⟩]) = .ok st' ∧
    Attributed (st'.env exB) (.sym CONST 10) .RIGHT_ASSOC_NIL (some tTrue) ∧
    Counts [(.CHAINABLE, some tTrue), (.RIGHT_ASSOC_NIL, some tTrue)] (.RIGHT_ASSOC_NIL, some tTrue) := by
  have h : ((exec exB 10 (State.init exB 10) (.declareConst (nm "and") (ap "->" [.bool, .bool, .bool])
      [⟨.CHAINABLE, some (sy "true"), none⟩, ⟨.RIGHT_ASSOC_NIL, some (sy "true"), none⟩])).map fun st' => (st'.env exB).appInfo (.sym CONST 10)) =
      .ok (some ⟨.RIGHT_ASSOC_NIL, some tTrue, NONE, none⟩) := by rfl
  rw [Run.map_ok] at h
  obtain ⟨st', h1, h2⟩ := h
  exact ⟨st', h1, ⟨none, h2⟩, [(.CHAINABLE, some tTrue)], [], rfl, by simp [Precedes, attrOrder]; decide, by simp⟩

/-- and then `(and p q)` is a list -/
example : runEx (twoAttrs ++ [.declareConst (nm "p") .bool [], .define (nm "z") [] (ap "and" [sy "p", sy "p"]) []]) "z" =
    .ok (some (.node APPLY [.node APPLY [.sym CONST 10, .sym CONST 11], .node APPLY [.node APPLY [.sym CONST 10, .sym CONST 11], tTrue]]), .correct) := by
  decide +kernel

end Ethos.Props
