import Verif.Lemmas.ListDefs
/- The programs of eo-definitions.eo on f-lists. -/
namespace Ethos.Props
open Ethos Kind Spec

/-- searches for an occurrence -/
syntax "sub_tac" : tactic
macro_rules
  | `(tactic| sub_tac) => `(tactic| first
      | exact Sub.refl _
      | (refine sub_of_mem (.head _) ?_; sub_tac)
      | (refine sub_of_mem (.tail _ (.head _)) ?_; sub_tac)
      | (refine sub_of_mem (.tail _ (.tail _ (.head _))) ?_; sub_tac)
      | (refine sub_of_mem (.tail _ (.tail _ (.tail _ (.head _)))) ?_; sub_tac))

section
variable {env : Env} {S : ListSyms} (D : ListDefs env S)
include D

/-- `($eo_eq a b)` -/
theorem ev_eq {a b : Term} (ha : IsValue a) (hb : IsValue b) : EvaluatesTo env [] (call S.eq [a, b]) (boolVal (decide (a = b))) := by
  obtain ⟨t, s, ⟨hd, hn⟩, hp⟩ := D.eq
  simp only [List.mem_cons, List.not_mem_nil, or_false, forall_eq_or_imp, forall_eq] at hd
  obtain ⟨ht, hs⟩ := hd
  obtain ⟨σ, hσ⟩ := exists_sub [t, s] [a, b] hn rfl
  simp only [List.map_cons, List.map_nil, List.cons.injEq, and_true] at hσ
  by_cases hab : a = b
  · subst hab
    simp only [decide_true]
    refine run_const (pre := []) hp (by simpa using ha) σ (by simp) ?_ ?_ (bool_value _)
    · simpa using anyFree_param ht
    · simp [subst_param ht, hσ]
  · simp only [hab, decide_false]
    refine run_const (pre := [([t, t], boolVal true)]) hp (by simpa using ⟨ha, hb⟩) σ ?_ ?_ ?_ (bool_value _)
    · simp only [List.mem_singleton, forall_eq]
      refine ⟨rfl, ?_⟩
      rintro ⟨τ, h⟩
      simp only [List.map_cons, List.map_nil, List.cons.injEq, and_true] at h
      exact hab (h.1.symm.trans h.2)
    · simpa using ⟨anyFree_param ht, anyFree_param hs⟩
    · simp [subst_param ht, subst_param hs, hσ]

theorem ev_eqDef {ctx : Ctx} {A B a b : Term} (h1 : EvaluatesTo env ctx A a) (h2 : EvaluatesTo env ctx B b) (ha : IsValue a) (hb : IsValue b) :
    EvaluatesTo env ctx (eqDef S A B) (boolVal (decide (a = b))) := by
  obtain ⟨t, s, _, hp⟩ := D.eq
  exact (ev_call hp [(A, a), (B, b)] (by simpa using ⟨h1, h2⟩) (by simpa using ⟨ha, hb⟩) _).mpr (ev_eq D ha hb)

omit D in
/-- an application depends on the values of its parts only -/
theorem ev_app_congr {ctx ctx' : Ctx} {cs cs' vs : List Term} {v : Term} (h1 : EvalList (OpResult env) (ProgResult env) ctx cs vs)
    (h2 : EvalList (OpResult env) (ProgResult env) ctx' cs' vs) (h : EvaluatesTo env ctx (.node APPLY cs) v) :
    EvaluatesTo env ctx' (.node APPLY cs') v := by
  rw [evaluatesTo_iff] at *
  cases h with
  | progStuck _ _ _ p ps _ hl hp hr =>
    have := EvalList.det OpResult.det ProgResult.det h1 hl
    subst this
    exact .progStuck _ _ _ _ _ (.inl rfl) h2 hp hr
  | progConst _ _ _ p ps b c _ hl hp hr hg =>
    have := EvalList.det OpResult.det ProgResult.det h1 hl
    subst this
    exact .progConst _ _ _ _ _ _ _ (.inl rfl) h2 hp hr hg
  | progRun _ _ _ p ps b c _ _ hl hp hr hg hc hb =>
    have := EvalList.det OpResult.det ProgResult.det h1 hl
    subst this
    exact .progRun _ _ _ _ _ _ _ _ (.inl rfl) h2 hp hr hg hc hb
  | app _ _ _ p ps _ hl hp =>
    have := EvalList.det OpResult.det ProgResult.det h1 hl
    subst this
    exact .app _ _ _ _ _ (.inl rfl) h2 hp
  | bound _ _ _ hp => 
    have := hp.1
    simp [Term.kind] at this
  | free _ _ hp => 
    have := hp.1
    simp [Term.kind] at this
  | leaf _ _ _ hc =>
    simp only [Term.children] at hc
    subst hc
    cases h1
    cases h2
    exact .leaf _ _ (by simp [IsParam, Term.kind]) rfl
  | op _ _ _ _ _ h => simp [isLiteralOp] at h
  | opStuck _ _ _ _ h => simp [isLiteralOp] at h
  | other _ _ _ _ _ h => simp at h

theorem ev_nilDef {ctx : Ctx} {F A f a nil : Term} (h1 : EvaluatesTo env ctx F f) (h2 : EvaluatesTo env ctx A a) (hf : IsValue f) (ha : IsValue a)
    (h : EvaluatesTo env [] (nilDef S f a) nil) : EvaluatesTo env ctx (nilDef S F A) nil := by
  obtain ⟨cases, hp⟩ := D.nil
  have hpe : ∀ c, EvaluatesTo env c S.nil S.nil := fun c => by
    rw [evaluatesTo_iff]
    exact .leaf _ _ (fun h => by have := h.1; rw [hp.1.1] at this; simp at this) hp.1.2
  -- the type of `a`
  have ht : ∃ t, EvaluatesTo env [] (.node EVAL_TYPE_OF [a]) t := by
    have h := (evaluatesTo_iff _ _ _ _).mp h
    have key : ∀ vs, EvalList (OpResult env) (ProgResult env) [] [S.nil, f, .node EVAL_TYPE_OF [a]] vs →
        ∃ t, EvaluatesTo env [] (.node EVAL_TYPE_OF [a]) t := by
      intro vs hl
      cases hl with
      | cons _ _ _ _ _ _ hl =>
      cases hl with
      | cons _ _ _ _ _ _ hl =>
      cases hl with
      | cons _ _ _ t _ h3 hl => exact ⟨t, (evaluatesTo_iff _ _ _ _).mpr h3⟩
    unfold nilDef call at h
    cases h with
    | progStuck _ _ _ p ps _ hl hp hr => exact key _ hl
    | progConst _ _ _ p ps b c _ hl hp hr hg => exact key _ hl
    | progRun _ _ _ p ps b c _ _ hl hp hr hg hc hb => exact key _ hl
    | app _ _ _ p ps _ hl hp => exact key _ hl
    | bound _ _ _ hp => 
      have := hp.1
      simp [Term.kind] at this
    | free _ _ hp => 
      have := hp.1
      simp [Term.kind] at this
    | leaf _ _ _ hc => simp [Term.children] at hc
    | op _ _ _ _ _ h => simp [isLiteralOp] at h
    | opStuck _ _ _ _ g => simp [isLiteralOp] at g
    | other _ _ _ _ _ g => simp at g
  obtain ⟨t, ht⟩ := ht
  have ht' : EvaluatesTo env ctx (.node EVAL_TYPE_OF [A]) t := by
    have e1 := C31_operator env [] EVAL_TYPE_OF [(a, a)] rfl (by simp) (by simp) (by simpa using value_eval _ _ _ ha) t
    have e2 := C31_operator env ctx EVAL_TYPE_OF [(A, a)] rfl (by simp) (by simp) (by simpa using h2) t
    exact e2.mpr (e1.mp ht)
  have l1 := ev_list (env := env) (ctx := []) [(S.nil, S.nil), (f, f), (.node EVAL_TYPE_OF [a], t)]
    (by simp only [List.mem_cons, List.not_mem_nil, or_false, forall_eq_or_imp, forall_eq]; exact ⟨hpe _, value_eval _ _ _ hf, ht⟩)
  have l2 := ev_list (env := env) (ctx := ctx) [(S.nil, S.nil), (F, f), (.node EVAL_TYPE_OF [A], t)]
    (by simp only [List.mem_cons, List.not_mem_nil, or_false, forall_eq_or_imp, forall_eq]; exact ⟨hpe _, h1, ht'⟩)
  exact ev_app_congr l1 l2 h

/-- `($eo_is_list_rec f nil z)` -/
theorem ev_isList {f nil : Term} (hf : IsValue f) (hn : IsValue nil) (hna : NotApp f nil) : ∀ z : Term, IsValue z → Curried f z →
    ∃ b, EvaluatesTo env [] (call S.isList [f, nil, z]) (boolVal b) ∧ (b = true ↔ ∃ xs, z = rlist f nil xs) := by
  obtain ⟨pf, px, py, pn, pz, ⟨hd, hnd⟩, hp⟩ := D.isList
  simp only [List.mem_cons, List.not_mem_nil, or_false, forall_eq_or_imp, forall_eq] at hd
  obtain ⟨hpf, hpx, hpy, hpn, hpz⟩ := hd
  intro z
  induction z using Term.induct' with
  | h z ih =>
    intro hz hc
    by_cases hb : ∃ x y, z = bin f x y
    · obtain ⟨x, y, rfl⟩ := hb
      have hyv := (value_bin.mp hz).2.2
      obtain ⟨b, h1, h2⟩ := ih y (by simp [bin, Term.children]) hyv (fun x' y' r1 r2 hs => hc x' y' r1 r2 (hs.trans (sub_bin_y f x y)))
      refine ⟨b, ?_, ?_⟩
      · obtain ⟨σ, hσ⟩ := exists_sub [pf, px, py, pn, pz] [f, x, y, nil, nil] hnd rfl
        simp only [List.map_cons, List.map_nil, List.cons.injEq, and_true] at hσ
        refine run_case (pre := []) hp (by simpa using ⟨hf, hn, hz⟩) σ (by simp) ?_ ?_ [pf, py, pn] ?_ ⟨pf, by simp, sub_of_mem (c := pf) (by simp) (.refl _)⟩ ?_
        · simpa using ⟨anyFree_param hpf, anyFree_param hpn, anyFree_bin (anyFree_param hpf) (anyFree_param hpx) (anyFree_param hpy)⟩
        · simp [subst_param, subst_bin, hpf, hpn, hpx, hpy, hσ]
        · simp only [List.mem_cons, List.not_mem_nil, or_false, forall_eq_or_imp, forall_eq]
          exact ⟨⟨hpf, pf, by simp, .refl _⟩, ⟨hpy, bin pf px py, by simp, sub_bin_y _ _ _⟩, ⟨hpn, pn, by simp, .refl _⟩⟩
        · intro ctx hctx
          simp only [List.mem_cons, List.not_mem_nil, or_false, forall_eq_or_imp, forall_eq, hσ] at hctx
          exact (ev_call hp [(pf, f), (pn, nil), (py, y)] (by
            simp only [List.mem_cons, List.not_mem_nil, or_false, forall_eq_or_imp, forall_eq]
            exact ⟨ev_param hpf hctx.1, ev_param hpn hctx.2.2, ev_param hpy hctx.2.1⟩) (by simpa using ⟨hf, hn, hyv⟩) _).mpr h1
      · rw [h2]
        constructor
        · rintro ⟨xs, rfl⟩; exact ⟨x :: xs, rfl⟩
        · rintro ⟨xs, h⟩
          cases xs with
          | nil => exact absurd h.symm (hna x y [] [])
          | cons x' xs =>
            simp only [rlist, bin, Term.node.injEq, List.cons.injEq, and_true, true_and] at h
            exact ⟨xs, h.2⟩
    · refine ⟨decide (nil = z), ?_, ?_⟩
      · obtain ⟨σ, hσ⟩ := exists_sub [pf, px, py, pn, pz] [f, z, z, nil, z] hnd rfl
        simp only [List.map_cons, List.map_nil, List.cons.injEq, and_true] at hσ
        refine run_case (pre := [_]) hp (by simpa using ⟨hf, hn, hz⟩) σ ?_ ?_ ?_ [pn, pz] ?_ ⟨pn, by simp, sub_of_mem (c := pn) (by simp) (.refl _)⟩ ?_
        · simp only [List.mem_singleton, forall_eq]
          refine ⟨rfl, ?_⟩
          rintro ⟨τ, h⟩
          simp only [List.map_cons, List.map_nil, subst_bin, List.cons.injEq, and_true] at h
          exact hb ⟨_, _, by rw [← h.1]; exact h.2.2.symm⟩
        · simpa using ⟨anyFree_param hpf, anyFree_param hpn, anyFree_param hpz⟩
        · simp [subst_param, hpf, hpn, hpz, hσ]
        · simp only [List.mem_cons, List.not_mem_nil, or_false, forall_eq_or_imp, forall_eq]
          exact ⟨⟨hpn, pn, by simp, .refl _⟩, ⟨hpz, pz, by simp, .refl _⟩⟩
        · intro ctx hctx
          simp only [List.mem_cons, List.not_mem_nil, or_false, forall_eq_or_imp, forall_eq, hσ] at hctx
          exact ev_eqDef D (ev_param hpn hctx.1) (ev_param hpz hctx.2) hn hz
      · simp only [decide_eq_true_eq]
        constructor
        · rintro rfl; exact ⟨[], rfl⟩
        · rintro ⟨xs, h⟩
          cases xs with
          | nil => exact h.symm
          | cons x xs => exact absurd ⟨x, _, h⟩ hb

theorem ev_getElements_cons {f nil x y v : Term} (hf : IsValue f) (hnil : IsValue nil) (hx : IsValue x) (hy : IsValue y)
    (h : ∀ (ctx : Ctx) (F X Y Nil : Term), EvaluatesTo env ctx F f → EvaluatesTo env ctx X x → EvaluatesTo env ctx Y y → EvaluatesTo env ctx Nil nil → EvaluatesTo env ctx (.node EVAL_CONS [S.cons, X, call S.getElements [F, Nil, Y]]) v) :
    EvaluatesTo env [] (call S.getElements [f, nil, bin f x y]) v := by
  obtain ⟨pf, px, py, pnil, ⟨hd, hnd⟩, hp⟩ := D.getElements
  simp only [List.mem_cons, List.not_mem_nil, or_false, forall_eq_or_imp, forall_eq] at hd
  obtain ⟨hpf, hpx, hpy, hpnil⟩ := hd
  obtain ⟨σ, hσ⟩ := exists_sub [pf, px, py, pnil] [f, x, y, nil] hnd rfl
  simp only [List.map_cons, List.map_nil, List.cons.injEq, and_true] at hσ
  refine run_case (pre := []) hp (by
    simp only [List.mem_cons, List.not_mem_nil, or_false, forall_eq_or_imp, forall_eq]; exact ⟨hf, hnil, value_bin.mpr ⟨hf, hx, hy⟩⟩) σ ?_ ?_ ?_ [pf, px, py, pnil] ?_ ⟨pf, by simp, ?_⟩ ?_
  · simp
  · simp only [List.mem_cons, List.not_mem_nil, or_false, forall_eq_or_imp, forall_eq]; exact ⟨anyFree_param hpf, anyFree_param hpnil, anyFree_bin (anyFree_param hpf) (anyFree_param hpx) (anyFree_param hpy)⟩
  · simp [subst_param, subst_bin, hpf, hpnil, hpx, hpy, hσ]
  · simp only [List.mem_cons, List.not_mem_nil, or_false, forall_eq_or_imp, forall_eq]; exact ⟨⟨hpf, pf, by simp, .refl _⟩, ⟨hpx, bin pf px py, by simp, sub_bin_x _ _ _⟩, ⟨hpy, bin pf px py, by simp, sub_bin_y _ _ _⟩, ⟨hpnil, pnil, by simp, .refl _⟩⟩
  · sub_tac
  · intro ctx hctx
    simp only [List.mem_cons, List.not_mem_nil, or_false, forall_eq_or_imp, forall_eq, hσ] at hctx
    exact h ctx _ _ _ _ (ev_param hpf hctx.1) (ev_param hpx hctx.2.1) (ev_param hpy hctx.2.2.1) (ev_param hpnil hctx.2.2.2)

theorem ev_getElements_nil {f nil : Term} (hf : IsValue f) (hnil : IsValue nil) (hna : NotApp f nil) (hnl : IsValue S.nilList) :
    EvaluatesTo env [] (call S.getElements [f, nil, nil]) (S.nilList) := by
  obtain ⟨pf, px, py, pnil, ⟨hd, hnd⟩, hp⟩ := D.getElements
  simp only [List.mem_cons, List.not_mem_nil, or_false, forall_eq_or_imp, forall_eq] at hd
  obtain ⟨hpf, hpx, hpy, hpnil⟩ := hd
  obtain ⟨σ, hσ⟩ := exists_sub [pf, px, py, pnil] [f, f, f, nil] hnd rfl
  simp only [List.map_cons, List.map_nil, List.cons.injEq, and_true] at hσ
  refine run_const (pre := [_]) hp (by
    simp only [List.mem_cons, List.not_mem_nil, or_false, forall_eq_or_imp, forall_eq]; exact ⟨hf, hnil, hnil⟩) σ ?_ ?_ ?_ hnl
  · simp only [List.mem_singleton, forall_eq]
    refine ⟨rfl, ?_⟩
    rintro ⟨τ, h⟩
    simp only [List.map_cons, List.map_nil, subst_bin, List.cons.injEq, and_true] at h
    have e := h.2.2.symm
    rw [h.1] at e
    exact hna _ _ [] [] e
  · simp only [List.mem_cons, List.not_mem_nil, or_false, forall_eq_or_imp, forall_eq]; exact ⟨anyFree_param hpf, anyFree_param hpnil, anyFree_param hpnil⟩
  · simp [subst_param, subst_bin, hpf, hpnil, hσ]

theorem ev_len_cons {f x y v : Term} (hf : IsValue f) (hx : IsValue x) (hy : IsValue y)
    (h : ∀ (ctx : Ctx) (F Y : Term), EvaluatesTo env ctx F f → EvaluatesTo env ctx Y y → EvaluatesTo env ctx (.node EVAL_ADD [int 1, call S.len [F, Y]]) v) :
    EvaluatesTo env [] (call S.len [f, bin f x y]) v := by
  obtain ⟨pf, px, py, pnil, ⟨hd, hnd⟩, hp⟩ := D.len
  simp only [List.mem_cons, List.not_mem_nil, or_false, forall_eq_or_imp, forall_eq] at hd
  obtain ⟨hpf, hpx, hpy, hpnil⟩ := hd
  obtain ⟨σ, hσ⟩ := exists_sub [pf, px, py, pnil] [f, x, y, f] hnd rfl
  simp only [List.map_cons, List.map_nil, List.cons.injEq, and_true] at hσ
  refine run_case (pre := []) hp (by
    simp only [List.mem_cons, List.not_mem_nil, or_false, forall_eq_or_imp, forall_eq]; exact ⟨hf, value_bin.mpr ⟨hf, hx, hy⟩⟩) σ ?_ ?_ ?_ [pf, py] ?_ ⟨pf, by simp, ?_⟩ ?_
  · simp
  · simp only [List.mem_cons, List.not_mem_nil, or_false, forall_eq_or_imp, forall_eq]; exact ⟨anyFree_param hpf, anyFree_bin (anyFree_param hpf) (anyFree_param hpx) (anyFree_param hpy)⟩
  · simp [subst_param, subst_bin, hpf, hpx, hpy, hσ]
  · simp only [List.mem_cons, List.not_mem_nil, or_false, forall_eq_or_imp, forall_eq]; exact ⟨⟨hpf, pf, by simp, .refl _⟩, ⟨hpy, bin pf px py, by simp, sub_bin_y _ _ _⟩⟩
  · sub_tac
  · intro ctx hctx
    simp only [List.mem_cons, List.not_mem_nil, or_false, forall_eq_or_imp, forall_eq, hσ] at hctx
    exact h ctx _ _ (ev_param hpf hctx.1) (ev_param hpy hctx.2)

theorem ev_len_nil {f nil : Term} (hf : IsValue f) (hnil : IsValue nil) (hna : NotApp f nil) :
    EvaluatesTo env [] (call S.len [f, nil]) (int 0) := by
  obtain ⟨pf, px, py, pnil, ⟨hd, hnd⟩, hp⟩ := D.len
  simp only [List.mem_cons, List.not_mem_nil, or_false, forall_eq_or_imp, forall_eq] at hd
  obtain ⟨hpf, hpx, hpy, hpnil⟩ := hd
  obtain ⟨σ, hσ⟩ := exists_sub [pf, px, py, pnil] [f, f, f, nil] hnd rfl
  simp only [List.map_cons, List.map_nil, List.cons.injEq, and_true] at hσ
  refine run_const (pre := [_]) hp (by
    simp only [List.mem_cons, List.not_mem_nil, or_false, forall_eq_or_imp, forall_eq]; exact ⟨hf, hnil⟩) σ ?_ ?_ ?_ (int_value _)
  · simp only [List.mem_singleton, forall_eq]
    refine ⟨rfl, ?_⟩
    rintro ⟨τ, h⟩
    simp only [List.map_cons, List.map_nil, subst_bin, List.cons.injEq, and_true] at h
    have e := h.2.symm
    rw [h.1] at e
    exact hna _ _ [] [] e
  · simp only [List.mem_cons, List.not_mem_nil, or_false, forall_eq_or_imp, forall_eq]; exact ⟨anyFree_param hpf, anyFree_param hpnil⟩
  · simp [subst_param, subst_bin, hpf, hpnil, hσ]

theorem ev_concat_cons {f x y z v : Term} (hf : IsValue f) (hx : IsValue x) (hy : IsValue y) (hz : IsValue z)
    (h : ∀ (ctx : Ctx) (F X Y Z : Term), EvaluatesTo env ctx F f → EvaluatesTo env ctx X x → EvaluatesTo env ctx Y y → EvaluatesTo env ctx Z z → EvaluatesTo env ctx (bin F X (call S.concat [F, Y, Z])) v) :
    EvaluatesTo env [] (call S.concat [f, bin f x y, z]) v := by
  obtain ⟨pf, px, py, pz, pnil, ⟨hd, hnd⟩, hp⟩ := D.concat
  simp only [List.mem_cons, List.not_mem_nil, or_false, forall_eq_or_imp, forall_eq] at hd
  obtain ⟨hpf, hpx, hpy, hpz, hpnil⟩ := hd
  obtain ⟨σ, hσ⟩ := exists_sub [pf, px, py, pz, pnil] [f, x, y, z, f] hnd rfl
  simp only [List.map_cons, List.map_nil, List.cons.injEq, and_true] at hσ
  refine run_case (pre := []) hp (by
    simp only [List.mem_cons, List.not_mem_nil, or_false, forall_eq_or_imp, forall_eq]; exact ⟨hf, value_bin.mpr ⟨hf, hx, hy⟩, hz⟩) σ ?_ ?_ ?_ [pf, px, py, pz] ?_ ⟨pf, by simp, ?_⟩ ?_
  · simp
  · simp only [List.mem_cons, List.not_mem_nil, or_false, forall_eq_or_imp, forall_eq]; exact ⟨anyFree_param hpf, anyFree_bin (anyFree_param hpf) (anyFree_param hpx) (anyFree_param hpy), anyFree_param hpz⟩
  · simp [subst_param, subst_bin, hpf, hpx, hpy, hpz, hσ]
  · simp only [List.mem_cons, List.not_mem_nil, or_false, forall_eq_or_imp, forall_eq]; exact ⟨⟨hpf, pf, by simp, .refl _⟩, ⟨hpx, bin pf px py, by simp, sub_bin_x _ _ _⟩, ⟨hpy, bin pf px py, by simp, sub_bin_y _ _ _⟩, ⟨hpz, pz, by simp, .refl _⟩⟩
  · exact sub_bin_f _ _ _
  · intro ctx hctx
    simp only [List.mem_cons, List.not_mem_nil, or_false, forall_eq_or_imp, forall_eq, hσ] at hctx
    exact h ctx _ _ _ _ (ev_param hpf hctx.1) (ev_param hpx hctx.2.1) (ev_param hpy hctx.2.2.1) (ev_param hpz hctx.2.2.2)

theorem ev_concat_nil {f nil z v : Term} (hf : IsValue f) (hnil : IsValue nil) (hz : IsValue z) (hna : NotApp f nil)
    (h : ∀ (ctx : Ctx) (Z : Term), EvaluatesTo env ctx Z z → EvaluatesTo env ctx (Z) v) :
    EvaluatesTo env [] (call S.concat [f, nil, z]) v := by
  obtain ⟨pf, px, py, pz, pnil, ⟨hd, hnd⟩, hp⟩ := D.concat
  simp only [List.mem_cons, List.not_mem_nil, or_false, forall_eq_or_imp, forall_eq] at hd
  obtain ⟨hpf, hpx, hpy, hpz, hpnil⟩ := hd
  obtain ⟨σ, hσ⟩ := exists_sub [pf, px, py, pz, pnil] [f, f, f, z, nil] hnd rfl
  simp only [List.map_cons, List.map_nil, List.cons.injEq, and_true] at hσ
  refine run_case (pre := [_]) hp (by
    simp only [List.mem_cons, List.not_mem_nil, or_false, forall_eq_or_imp, forall_eq]; exact ⟨hf, hnil, hz⟩) σ ?_ ?_ ?_ [pz] ?_ ⟨pz, by simp, ?_⟩ ?_
  · simp only [List.mem_singleton, forall_eq]
    refine ⟨rfl, ?_⟩
    rintro ⟨τ, h⟩
    simp only [List.map_cons, List.map_nil, subst_bin, List.cons.injEq, and_true] at h
    have e := h.2.1.symm
    rw [h.1] at e
    exact hna _ _ [] [] e
  · simp only [List.mem_cons, List.not_mem_nil, or_false, forall_eq_or_imp, forall_eq]; exact ⟨anyFree_param hpf, anyFree_param hpnil, anyFree_param hpz⟩
  · simp [subst_param, subst_bin, hpf, hpnil, hpz, hσ]
  · simp only [List.mem_cons, List.not_mem_nil, or_false, forall_eq]; exact ⟨hpz, pz, by simp, .refl _⟩
  · exact .refl _
  · intro ctx hctx
    simp only [List.mem_cons, List.not_mem_nil, or_false, forall_eq_or_imp, forall_eq, hσ] at hctx
    exact h ctx _ (ev_param hpz hctx)

theorem ev_find_cons {f x y z n v : Term} (hf : IsValue f) (hx : IsValue x) (hy : IsValue y) (hz : IsValue z) (hn : IsValue n)
    (h : ∀ (ctx : Ctx) (F X Y Z N : Term), EvaluatesTo env ctx F f → EvaluatesTo env ctx X x → EvaluatesTo env ctx Y y → EvaluatesTo env ctx Z z → EvaluatesTo env ctx N n → EvaluatesTo env ctx (Spec.ite (eqDef S X Z) N (call S.find [F, Y, Z, .node EVAL_ADD [N, int 1]])) v) :
    EvaluatesTo env [] (call S.find [f, bin f x y, z, n]) v := by
  obtain ⟨pf, px, py, pz, pnil, pn, ⟨hd, hnd⟩, hp⟩ := D.find
  simp only [List.mem_cons, List.not_mem_nil, or_false, forall_eq_or_imp, forall_eq] at hd
  obtain ⟨hpf, hpx, hpy, hpz, hpnil, hpn⟩ := hd
  obtain ⟨σ, hσ⟩ := exists_sub [pf, px, py, pz, pnil, pn] [f, x, y, z, f, n] hnd rfl
  simp only [List.map_cons, List.map_nil, List.cons.injEq, and_true] at hσ
  refine run_case (pre := []) hp (by
    simp only [List.mem_cons, List.not_mem_nil, or_false, forall_eq_or_imp, forall_eq]; exact ⟨hf, value_bin.mpr ⟨hf, hx, hy⟩, hz, hn⟩) σ ?_ ?_ ?_ [pf, px, py, pz, pn] ?_ ⟨pf, by simp, ?_⟩ ?_
  · simp
  · simp only [List.mem_cons, List.not_mem_nil, or_false, forall_eq_or_imp, forall_eq]; exact ⟨anyFree_param hpf, anyFree_bin (anyFree_param hpf) (anyFree_param hpx) (anyFree_param hpy), anyFree_param hpz, anyFree_param hpn⟩
  · simp [subst_param, subst_bin, hpf, hpx, hpy, hpz, hpn, hσ]
  · simp only [List.mem_cons, List.not_mem_nil, or_false, forall_eq_or_imp, forall_eq]; exact ⟨⟨hpf, pf, by simp, .refl _⟩, ⟨hpx, bin pf px py, by simp, sub_bin_x _ _ _⟩, ⟨hpy, bin pf px py, by simp, sub_bin_y _ _ _⟩, ⟨hpz, pz, by simp, .refl _⟩, ⟨hpn, pn, by simp, .refl _⟩⟩
  · sub_tac
  · intro ctx hctx
    simp only [List.mem_cons, List.not_mem_nil, or_false, forall_eq_or_imp, forall_eq, hσ] at hctx
    exact h ctx _ _ _ _ _ (ev_param hpf hctx.1) (ev_param hpx hctx.2.1) (ev_param hpy hctx.2.2.1) (ev_param hpz hctx.2.2.2.1) (ev_param hpn hctx.2.2.2.2)

theorem ev_find_nil {f nil z n : Term} (hf : IsValue f) (hnil : IsValue nil) (hz : IsValue z) (hn : IsValue n) (hna : NotApp f nil) :
    EvaluatesTo env [] (call S.find [f, nil, z, n]) (int (-1)) := by
  obtain ⟨pf, px, py, pz, pnil, pn, ⟨hd, hnd⟩, hp⟩ := D.find
  simp only [List.mem_cons, List.not_mem_nil, or_false, forall_eq_or_imp, forall_eq] at hd
  obtain ⟨hpf, hpx, hpy, hpz, hpnil, hpn⟩ := hd
  obtain ⟨σ, hσ⟩ := exists_sub [pf, px, py, pz, pnil, pn] [f, f, f, z, nil, n] hnd rfl
  simp only [List.map_cons, List.map_nil, List.cons.injEq, and_true] at hσ
  refine run_const (pre := [_]) hp (by
    simp only [List.mem_cons, List.not_mem_nil, or_false, forall_eq_or_imp, forall_eq]; exact ⟨hf, hnil, hz, hn⟩) σ ?_ ?_ ?_ (int_value _)
  · simp only [List.mem_singleton, forall_eq]
    refine ⟨rfl, ?_⟩
    rintro ⟨τ, h⟩
    simp only [List.map_cons, List.map_nil, subst_bin, List.cons.injEq, and_true] at h
    have e := h.2.1.symm
    rw [h.1] at e
    exact hna _ _ [] [] e
  · simp only [List.mem_cons, List.not_mem_nil, or_false, forall_eq_or_imp, forall_eq]; exact ⟨anyFree_param hpf, anyFree_param hpnil, anyFree_param hpz, anyFree_param hpn⟩
  · simp [subst_param, subst_bin, hpf, hpnil, hpz, hpn, hσ]

theorem ev_rev_cons {f x y acc v : Term} (hf : IsValue f) (hx : IsValue x) (hy : IsValue y) (hacc : IsValue acc)
    (h : ∀ (ctx : Ctx) (F X Y Acc : Term), EvaluatesTo env ctx F f → EvaluatesTo env ctx X x → EvaluatesTo env ctx Y y → EvaluatesTo env ctx Acc acc → EvaluatesTo env ctx (call S.rev [F, Y, bin F X Acc]) v) :
    EvaluatesTo env [] (call S.rev [f, bin f x y, acc]) v := by
  obtain ⟨pf, px, py, pnil, pacc, ⟨hd, hnd⟩, hp⟩ := D.rev
  simp only [List.mem_cons, List.not_mem_nil, or_false, forall_eq_or_imp, forall_eq] at hd
  obtain ⟨hpf, hpx, hpy, hpnil, hpacc⟩ := hd
  obtain ⟨σ, hσ⟩ := exists_sub [pf, px, py, pnil, pacc] [f, x, y, f, acc] hnd rfl
  simp only [List.map_cons, List.map_nil, List.cons.injEq, and_true] at hσ
  refine run_case (pre := []) hp (by
    simp only [List.mem_cons, List.not_mem_nil, or_false, forall_eq_or_imp, forall_eq]; exact ⟨hf, value_bin.mpr ⟨hf, hx, hy⟩, hacc⟩) σ ?_ ?_ ?_ [pf, px, py, pacc] ?_ ⟨pf, by simp, ?_⟩ ?_
  · simp
  · simp only [List.mem_cons, List.not_mem_nil, or_false, forall_eq_or_imp, forall_eq]; exact ⟨anyFree_param hpf, anyFree_bin (anyFree_param hpf) (anyFree_param hpx) (anyFree_param hpy), anyFree_param hpacc⟩
  · simp [subst_param, subst_bin, hpf, hpx, hpy, hpacc, hσ]
  · simp only [List.mem_cons, List.not_mem_nil, or_false, forall_eq_or_imp, forall_eq]; exact ⟨⟨hpf, pf, by simp, .refl _⟩, ⟨hpx, bin pf px py, by simp, sub_bin_x _ _ _⟩, ⟨hpy, bin pf px py, by simp, sub_bin_y _ _ _⟩, ⟨hpacc, pacc, by simp, .refl _⟩⟩
  · sub_tac
  · intro ctx hctx
    simp only [List.mem_cons, List.not_mem_nil, or_false, forall_eq_or_imp, forall_eq, hσ] at hctx
    exact h ctx _ _ _ _ (ev_param hpf hctx.1) (ev_param hpx hctx.2.1) (ev_param hpy hctx.2.2.1) (ev_param hpacc hctx.2.2.2)

theorem ev_rev_nil {f nil acc v : Term} (hf : IsValue f) (hnil : IsValue nil) (hacc : IsValue acc) (hna : NotApp f nil)
    (h : ∀ (ctx : Ctx) (Acc : Term), EvaluatesTo env ctx Acc acc → EvaluatesTo env ctx (Acc) v) :
    EvaluatesTo env [] (call S.rev [f, nil, acc]) v := by
  obtain ⟨pf, px, py, pnil, pacc, ⟨hd, hnd⟩, hp⟩ := D.rev
  simp only [List.mem_cons, List.not_mem_nil, or_false, forall_eq_or_imp, forall_eq] at hd
  obtain ⟨hpf, hpx, hpy, hpnil, hpacc⟩ := hd
  obtain ⟨σ, hσ⟩ := exists_sub [pf, px, py, pnil, pacc] [f, f, f, nil, acc] hnd rfl
  simp only [List.map_cons, List.map_nil, List.cons.injEq, and_true] at hσ
  refine run_case (pre := [_]) hp (by
    simp only [List.mem_cons, List.not_mem_nil, or_false, forall_eq_or_imp, forall_eq]; exact ⟨hf, hnil, hacc⟩) σ ?_ ?_ ?_ [pacc] ?_ ⟨pacc, by simp, ?_⟩ ?_
  · simp only [List.mem_singleton, forall_eq]
    refine ⟨rfl, ?_⟩
    rintro ⟨τ, h⟩
    simp only [List.map_cons, List.map_nil, subst_bin, List.cons.injEq, and_true] at h
    have e := h.2.1.symm
    rw [h.1] at e
    exact hna _ _ [] [] e
  · simp only [List.mem_cons, List.not_mem_nil, or_false, forall_eq_or_imp, forall_eq]; exact ⟨anyFree_param hpf, anyFree_param hpnil, anyFree_param hpacc⟩
  · simp [subst_param, subst_bin, hpf, hpnil, hpacc, hσ]
  · simp only [List.mem_cons, List.not_mem_nil, or_false, forall_eq]; exact ⟨hpacc, pacc, by simp, .refl _⟩
  · exact .refl _
  · intro ctx hctx
    simp only [List.mem_cons, List.not_mem_nil, or_false, forall_eq_or_imp, forall_eq, hσ] at hctx
    exact h ctx _ (ev_param hpacc hctx)

theorem ev_erase_cons {f x y z v : Term} (hf : IsValue f) (hx : IsValue x) (hy : IsValue y) (hz : IsValue z)
    (h : ∀ (ctx : Ctx) (F X Y Z : Term), EvaluatesTo env ctx F f → EvaluatesTo env ctx X x → EvaluatesTo env ctx Y y → EvaluatesTo env ctx Z z → EvaluatesTo env ctx (Spec.ite (eqDef S Z X) Y (bin F X (call S.erase [F, Y, Z]))) v) :
    EvaluatesTo env [] (call S.erase [f, bin f x y, z]) v := by
  obtain ⟨pf, px, py, pz, pnil, ⟨hd, hnd⟩, hp⟩ := D.erase
  simp only [List.mem_cons, List.not_mem_nil, or_false, forall_eq_or_imp, forall_eq] at hd
  obtain ⟨hpf, hpx, hpy, hpz, hpnil⟩ := hd
  obtain ⟨σ, hσ⟩ := exists_sub [pf, px, py, pz, pnil] [f, x, y, z, f] hnd rfl
  simp only [List.map_cons, List.map_nil, List.cons.injEq, and_true] at hσ
  refine run_case (pre := []) hp (by
    simp only [List.mem_cons, List.not_mem_nil, or_false, forall_eq_or_imp, forall_eq]; exact ⟨hf, value_bin.mpr ⟨hf, hx, hy⟩, hz⟩) σ ?_ ?_ ?_ [pf, px, py, pz] ?_ ⟨pf, by simp, ?_⟩ ?_
  · simp
  · simp only [List.mem_cons, List.not_mem_nil, or_false, forall_eq_or_imp, forall_eq]; exact ⟨anyFree_param hpf, anyFree_bin (anyFree_param hpf) (anyFree_param hpx) (anyFree_param hpy), anyFree_param hpz⟩
  · simp [subst_param, subst_bin, hpf, hpx, hpy, hpz, hσ]
  · simp only [List.mem_cons, List.not_mem_nil, or_false, forall_eq_or_imp, forall_eq]; exact ⟨⟨hpf, pf, by simp, .refl _⟩, ⟨hpx, bin pf px py, by simp, sub_bin_x _ _ _⟩, ⟨hpy, bin pf px py, by simp, sub_bin_y _ _ _⟩, ⟨hpz, pz, by simp, .refl _⟩⟩
  · sub_tac
  · intro ctx hctx
    simp only [List.mem_cons, List.not_mem_nil, or_false, forall_eq_or_imp, forall_eq, hσ] at hctx
    exact h ctx _ _ _ _ (ev_param hpf hctx.1) (ev_param hpx hctx.2.1) (ev_param hpy hctx.2.2.1) (ev_param hpz hctx.2.2.2)

theorem ev_erase_nil {f nil z v : Term} (hf : IsValue f) (hnil : IsValue nil) (hz : IsValue z) (hna : NotApp f nil)
    (h : ∀ (ctx : Ctx) (Nil : Term), EvaluatesTo env ctx Nil nil → EvaluatesTo env ctx (Nil) v) :
    EvaluatesTo env [] (call S.erase [f, nil, z]) v := by
  obtain ⟨pf, px, py, pz, pnil, ⟨hd, hnd⟩, hp⟩ := D.erase
  simp only [List.mem_cons, List.not_mem_nil, or_false, forall_eq_or_imp, forall_eq] at hd
  obtain ⟨hpf, hpx, hpy, hpz, hpnil⟩ := hd
  obtain ⟨σ, hσ⟩ := exists_sub [pf, px, py, pz, pnil] [f, f, f, z, nil] hnd rfl
  simp only [List.map_cons, List.map_nil, List.cons.injEq, and_true] at hσ
  refine run_case (pre := [_]) hp (by
    simp only [List.mem_cons, List.not_mem_nil, or_false, forall_eq_or_imp, forall_eq]; exact ⟨hf, hnil, hz⟩) σ ?_ ?_ ?_ [pnil] ?_ ⟨pnil, by simp, ?_⟩ ?_
  · simp only [List.mem_singleton, forall_eq]
    refine ⟨rfl, ?_⟩
    rintro ⟨τ, h⟩
    simp only [List.map_cons, List.map_nil, subst_bin, List.cons.injEq, and_true] at h
    have e := h.2.1.symm
    rw [h.1] at e
    exact hna _ _ [] [] e
  · simp only [List.mem_cons, List.not_mem_nil, or_false, forall_eq_or_imp, forall_eq]; exact ⟨anyFree_param hpf, anyFree_param hpnil, anyFree_param hpz⟩
  · simp [subst_param, subst_bin, hpf, hpnil, hpz, hσ]
  · simp only [List.mem_cons, List.not_mem_nil, or_false, forall_eq]; exact ⟨hpnil, pnil, by simp, .refl _⟩
  · exact .refl _
  · intro ctx hctx
    simp only [List.mem_cons, List.not_mem_nil, or_false, forall_eq_or_imp, forall_eq, hσ] at hctx
    exact h ctx _ (ev_param hpnil hctx)

theorem ev_eraseAll_cons {f x y z v : Term} (hf : IsValue f) (hx : IsValue x) (hy : IsValue y) (hz : IsValue z)
    (h : ∀ (ctx : Ctx) (F X Y Z : Term), EvaluatesTo env ctx F f → EvaluatesTo env ctx X x → EvaluatesTo env ctx Y y → EvaluatesTo env ctx Z z → EvaluatesTo env ctx (Spec.ite (eqDef S Z X) (call S.eraseAll [F, Y, Z]) (bin F X (call S.eraseAll [F, Y, Z]))) v) :
    EvaluatesTo env [] (call S.eraseAll [f, bin f x y, z]) v := by
  obtain ⟨pf, px, py, pz, pnil, ⟨hd, hnd⟩, hp⟩ := D.eraseAll
  simp only [List.mem_cons, List.not_mem_nil, or_false, forall_eq_or_imp, forall_eq] at hd
  obtain ⟨hpf, hpx, hpy, hpz, hpnil⟩ := hd
  obtain ⟨σ, hσ⟩ := exists_sub [pf, px, py, pz, pnil] [f, x, y, z, f] hnd rfl
  simp only [List.map_cons, List.map_nil, List.cons.injEq, and_true] at hσ
  refine run_case (pre := []) hp (by
    simp only [List.mem_cons, List.not_mem_nil, or_false, forall_eq_or_imp, forall_eq]; exact ⟨hf, value_bin.mpr ⟨hf, hx, hy⟩, hz⟩) σ ?_ ?_ ?_ [pf, px, py, pz] ?_ ⟨pf, by simp, ?_⟩ ?_
  · simp
  · simp only [List.mem_cons, List.not_mem_nil, or_false, forall_eq_or_imp, forall_eq]; exact ⟨anyFree_param hpf, anyFree_bin (anyFree_param hpf) (anyFree_param hpx) (anyFree_param hpy), anyFree_param hpz⟩
  · simp [subst_param, subst_bin, hpf, hpx, hpy, hpz, hσ]
  · simp only [List.mem_cons, List.not_mem_nil, or_false, forall_eq_or_imp, forall_eq]; exact ⟨⟨hpf, pf, by simp, .refl _⟩, ⟨hpx, bin pf px py, by simp, sub_bin_x _ _ _⟩, ⟨hpy, bin pf px py, by simp, sub_bin_y _ _ _⟩, ⟨hpz, pz, by simp, .refl _⟩⟩
  · sub_tac
  · intro ctx hctx
    simp only [List.mem_cons, List.not_mem_nil, or_false, forall_eq_or_imp, forall_eq, hσ] at hctx
    exact h ctx _ _ _ _ (ev_param hpf hctx.1) (ev_param hpx hctx.2.1) (ev_param hpy hctx.2.2.1) (ev_param hpz hctx.2.2.2)

theorem ev_eraseAll_nil {f nil z v : Term} (hf : IsValue f) (hnil : IsValue nil) (hz : IsValue z) (hna : NotApp f nil)
    (h : ∀ (ctx : Ctx) (Nil : Term), EvaluatesTo env ctx Nil nil → EvaluatesTo env ctx (Nil) v) :
    EvaluatesTo env [] (call S.eraseAll [f, nil, z]) v := by
  obtain ⟨pf, px, py, pz, pnil, ⟨hd, hnd⟩, hp⟩ := D.eraseAll
  simp only [List.mem_cons, List.not_mem_nil, or_false, forall_eq_or_imp, forall_eq] at hd
  obtain ⟨hpf, hpx, hpy, hpz, hpnil⟩ := hd
  obtain ⟨σ, hσ⟩ := exists_sub [pf, px, py, pz, pnil] [f, f, f, z, nil] hnd rfl
  simp only [List.map_cons, List.map_nil, List.cons.injEq, and_true] at hσ
  refine run_case (pre := [_]) hp (by
    simp only [List.mem_cons, List.not_mem_nil, or_false, forall_eq_or_imp, forall_eq]; exact ⟨hf, hnil, hz⟩) σ ?_ ?_ ?_ [pnil] ?_ ⟨pnil, by simp, ?_⟩ ?_
  · simp only [List.mem_singleton, forall_eq]
    refine ⟨rfl, ?_⟩
    rintro ⟨τ, h⟩
    simp only [List.map_cons, List.map_nil, subst_bin, List.cons.injEq, and_true] at h
    have e := h.2.1.symm
    rw [h.1] at e
    exact hna _ _ [] [] e
  · simp only [List.mem_cons, List.not_mem_nil, or_false, forall_eq_or_imp, forall_eq]; exact ⟨anyFree_param hpf, anyFree_param hpnil, anyFree_param hpz⟩
  · simp [subst_param, subst_bin, hpf, hpnil, hpz, hσ]
  · simp only [List.mem_cons, List.not_mem_nil, or_false, forall_eq]; exact ⟨hpnil, pnil, by simp, .refl _⟩
  · exact .refl _
  · intro ctx hctx
    simp only [List.mem_cons, List.not_mem_nil, or_false, forall_eq_or_imp, forall_eq, hσ] at hctx
    exact h ctx _ (ev_param hpnil hctx)

theorem ev_setof_cons {f x y v : Term} (hf : IsValue f) (hx : IsValue x) (hy : IsValue y)
    (h : ∀ (ctx : Ctx) (F X Y : Term), EvaluatesTo env ctx F f → EvaluatesTo env ctx X x → EvaluatesTo env ctx Y y → EvaluatesTo env ctx (bin F X (call S.setof [F, eraseAllDef S F Y X])) v) :
    EvaluatesTo env [] (call S.setof [f, bin f x y]) v := by
  obtain ⟨pf, px, py, pnil, ⟨hd, hnd⟩, hp⟩ := D.setof
  simp only [List.mem_cons, List.not_mem_nil, or_false, forall_eq_or_imp, forall_eq] at hd
  obtain ⟨hpf, hpx, hpy, hpnil⟩ := hd
  obtain ⟨σ, hσ⟩ := exists_sub [pf, px, py, pnil] [f, x, y, f] hnd rfl
  simp only [List.map_cons, List.map_nil, List.cons.injEq, and_true] at hσ
  refine run_case (pre := []) hp (by
    simp only [List.mem_cons, List.not_mem_nil, or_false, forall_eq_or_imp, forall_eq]; exact ⟨hf, value_bin.mpr ⟨hf, hx, hy⟩⟩) σ ?_ ?_ ?_ [pf, px, py] ?_ ⟨pf, by simp, ?_⟩ ?_
  · simp
  · simp only [List.mem_cons, List.not_mem_nil, or_false, forall_eq_or_imp, forall_eq]; exact ⟨anyFree_param hpf, anyFree_bin (anyFree_param hpf) (anyFree_param hpx) (anyFree_param hpy)⟩
  · simp [subst_param, subst_bin, hpf, hpx, hpy, hσ]
  · simp only [List.mem_cons, List.not_mem_nil, or_false, forall_eq_or_imp, forall_eq]; exact ⟨⟨hpf, pf, by simp, .refl _⟩, ⟨hpx, bin pf px py, by simp, sub_bin_x _ _ _⟩, ⟨hpy, bin pf px py, by simp, sub_bin_y _ _ _⟩⟩
  · exact sub_bin_f _ _ _
  · intro ctx hctx
    simp only [List.mem_cons, List.not_mem_nil, or_false, forall_eq_or_imp, forall_eq, hσ] at hctx
    exact h ctx _ _ _ (ev_param hpf hctx.1) (ev_param hpx hctx.2.1) (ev_param hpy hctx.2.2)

theorem ev_setof_nil {f nil v : Term} (hf : IsValue f) (hnil : IsValue nil) (hna : NotApp f nil)
    (h : ∀ (ctx : Ctx) (Nil : Term), EvaluatesTo env ctx Nil nil → EvaluatesTo env ctx (Nil) v) :
    EvaluatesTo env [] (call S.setof [f, nil]) v := by
  obtain ⟨pf, px, py, pnil, ⟨hd, hnd⟩, hp⟩ := D.setof
  simp only [List.mem_cons, List.not_mem_nil, or_false, forall_eq_or_imp, forall_eq] at hd
  obtain ⟨hpf, hpx, hpy, hpnil⟩ := hd
  obtain ⟨σ, hσ⟩ := exists_sub [pf, px, py, pnil] [f, f, f, nil] hnd rfl
  simp only [List.map_cons, List.map_nil, List.cons.injEq, and_true] at hσ
  refine run_case (pre := [_]) hp (by
    simp only [List.mem_cons, List.not_mem_nil, or_false, forall_eq_or_imp, forall_eq]; exact ⟨hf, hnil⟩) σ ?_ ?_ ?_ [pnil] ?_ ⟨pnil, by simp, ?_⟩ ?_
  · simp only [List.mem_singleton, forall_eq]
    refine ⟨rfl, ?_⟩
    rintro ⟨τ, h⟩
    simp only [List.map_cons, List.map_nil, subst_bin, List.cons.injEq, and_true] at h
    have e := h.2.symm
    rw [h.1] at e
    exact hna _ _ [] [] e
  · simp only [List.mem_cons, List.not_mem_nil, or_false, forall_eq_or_imp, forall_eq]; exact ⟨anyFree_param hpf, anyFree_param hpnil⟩
  · simp [subst_param, subst_bin, hpf, hpnil, hσ]
  · simp only [List.mem_cons, List.not_mem_nil, or_false, forall_eq]; exact ⟨hpnil, pnil, by simp, .refl _⟩
  · exact .refl _
  · intro ctx hctx
    simp only [List.mem_cons, List.not_mem_nil, or_false, forall_eq_or_imp, forall_eq, hσ] at hctx
    exact h ctx _ (ev_param hpnil hctx)

theorem ev_diff_cons {f x y z v : Term} (hf : IsValue f) (hx : IsValue x) (hy : IsValue y) (hz : IsValue z)
    (h : ∀ (ctx : Ctx) (F X Y Z : Term), EvaluatesTo env ctx F f → EvaluatesTo env ctx X x → EvaluatesTo env ctx Y y → EvaluatesTo env ctx Z z → EvaluatesTo env ctx (Spec.ite (eqDef S (eraseDef S F Z X) Z) (bin F X (call S.diff [F, Y, eraseDef S F Z X])) (call S.diff [F, Y, eraseDef S F Z X])) v) :
    EvaluatesTo env [] (call S.diff [f, bin f x y, z]) v := by
  obtain ⟨pf, px, py, pz, pnil, ⟨hd, hnd⟩, hp⟩ := D.diff
  simp only [List.mem_cons, List.not_mem_nil, or_false, forall_eq_or_imp, forall_eq] at hd
  obtain ⟨hpf, hpx, hpy, hpz, hpnil⟩ := hd
  obtain ⟨σ, hσ⟩ := exists_sub [pf, px, py, pz, pnil] [f, x, y, z, f] hnd rfl
  simp only [List.map_cons, List.map_nil, List.cons.injEq, and_true] at hσ
  refine run_case (pre := []) hp (by
    simp only [List.mem_cons, List.not_mem_nil, or_false, forall_eq_or_imp, forall_eq]; exact ⟨hf, value_bin.mpr ⟨hf, hx, hy⟩, hz⟩) σ ?_ ?_ ?_ [pf, px, py, pz] ?_ ⟨pf, by simp, ?_⟩ ?_
  · simp
  · simp only [List.mem_cons, List.not_mem_nil, or_false, forall_eq_or_imp, forall_eq]; exact ⟨anyFree_param hpf, anyFree_bin (anyFree_param hpf) (anyFree_param hpx) (anyFree_param hpy), anyFree_param hpz⟩
  · simp [subst_param, subst_bin, hpf, hpx, hpy, hpz, hσ]
  · simp only [List.mem_cons, List.not_mem_nil, or_false, forall_eq_or_imp, forall_eq]; exact ⟨⟨hpf, pf, by simp, .refl _⟩, ⟨hpx, bin pf px py, by simp, sub_bin_x _ _ _⟩, ⟨hpy, bin pf px py, by simp, sub_bin_y _ _ _⟩, ⟨hpz, pz, by simp, .refl _⟩⟩
  · sub_tac
  · intro ctx hctx
    simp only [List.mem_cons, List.not_mem_nil, or_false, forall_eq_or_imp, forall_eq, hσ] at hctx
    exact h ctx _ _ _ _ (ev_param hpf hctx.1) (ev_param hpx hctx.2.1) (ev_param hpy hctx.2.2.1) (ev_param hpz hctx.2.2.2)

theorem ev_diff_nil {f nil z v : Term} (hf : IsValue f) (hnil : IsValue nil) (hz : IsValue z) (hna : NotApp f nil)
    (h : ∀ (ctx : Ctx) (Nil : Term), EvaluatesTo env ctx Nil nil → EvaluatesTo env ctx (Nil) v) :
    EvaluatesTo env [] (call S.diff [f, nil, z]) v := by
  obtain ⟨pf, px, py, pz, pnil, ⟨hd, hnd⟩, hp⟩ := D.diff
  simp only [List.mem_cons, List.not_mem_nil, or_false, forall_eq_or_imp, forall_eq] at hd
  obtain ⟨hpf, hpx, hpy, hpz, hpnil⟩ := hd
  obtain ⟨σ, hσ⟩ := exists_sub [pf, px, py, pz, pnil] [f, f, f, z, nil] hnd rfl
  simp only [List.map_cons, List.map_nil, List.cons.injEq, and_true] at hσ
  refine run_case (pre := [_]) hp (by
    simp only [List.mem_cons, List.not_mem_nil, or_false, forall_eq_or_imp, forall_eq]; exact ⟨hf, hnil, hz⟩) σ ?_ ?_ ?_ [pnil] ?_ ⟨pnil, by simp, ?_⟩ ?_
  · simp only [List.mem_singleton, forall_eq]
    refine ⟨rfl, ?_⟩
    rintro ⟨τ, h⟩
    simp only [List.map_cons, List.map_nil, subst_bin, List.cons.injEq, and_true] at h
    have e := h.2.1.symm
    rw [h.1] at e
    exact hna _ _ [] [] e
  · simp only [List.mem_cons, List.not_mem_nil, or_false, forall_eq_or_imp, forall_eq]; exact ⟨anyFree_param hpf, anyFree_param hpnil, anyFree_param hpz⟩
  · simp [subst_param, subst_bin, hpf, hpnil, hpz, hσ]
  · simp only [List.mem_cons, List.not_mem_nil, or_false, forall_eq]; exact ⟨hpnil, pnil, by simp, .refl _⟩
  · exact .refl _
  · intro ctx hctx
    simp only [List.mem_cons, List.not_mem_nil, or_false, forall_eq_or_imp, forall_eq, hσ] at hctx
    exact h ctx _ (ev_param hpnil hctx)

theorem ev_inter_cons {f x y z v : Term} (hf : IsValue f) (hx : IsValue x) (hy : IsValue y) (hz : IsValue z)
    (h : ∀ (ctx : Ctx) (F X Y Z : Term), EvaluatesTo env ctx F f → EvaluatesTo env ctx X x → EvaluatesTo env ctx Y y → EvaluatesTo env ctx Z z → EvaluatesTo env ctx (Spec.ite (eqDef S (eraseDef S F Z X) Z) (call S.inter [F, Y, eraseDef S F Z X]) (bin F X (call S.inter [F, Y, eraseDef S F Z X]))) v) :
    EvaluatesTo env [] (call S.inter [f, bin f x y, z]) v := by
  obtain ⟨pf, px, py, pz, pnil, ⟨hd, hnd⟩, hp⟩ := D.inter
  simp only [List.mem_cons, List.not_mem_nil, or_false, forall_eq_or_imp, forall_eq] at hd
  obtain ⟨hpf, hpx, hpy, hpz, hpnil⟩ := hd
  obtain ⟨σ, hσ⟩ := exists_sub [pf, px, py, pz, pnil] [f, x, y, z, f] hnd rfl
  simp only [List.map_cons, List.map_nil, List.cons.injEq, and_true] at hσ
  refine run_case (pre := []) hp (by
    simp only [List.mem_cons, List.not_mem_nil, or_false, forall_eq_or_imp, forall_eq]; exact ⟨hf, value_bin.mpr ⟨hf, hx, hy⟩, hz⟩) σ ?_ ?_ ?_ [pf, px, py, pz] ?_ ⟨pf, by simp, ?_⟩ ?_
  · simp
  · simp only [List.mem_cons, List.not_mem_nil, or_false, forall_eq_or_imp, forall_eq]; exact ⟨anyFree_param hpf, anyFree_bin (anyFree_param hpf) (anyFree_param hpx) (anyFree_param hpy), anyFree_param hpz⟩
  · simp [subst_param, subst_bin, hpf, hpx, hpy, hpz, hσ]
  · simp only [List.mem_cons, List.not_mem_nil, or_false, forall_eq_or_imp, forall_eq]; exact ⟨⟨hpf, pf, by simp, .refl _⟩, ⟨hpx, bin pf px py, by simp, sub_bin_x _ _ _⟩, ⟨hpy, bin pf px py, by simp, sub_bin_y _ _ _⟩, ⟨hpz, pz, by simp, .refl _⟩⟩
  · sub_tac
  · intro ctx hctx
    simp only [List.mem_cons, List.not_mem_nil, or_false, forall_eq_or_imp, forall_eq, hσ] at hctx
    exact h ctx _ _ _ _ (ev_param hpf hctx.1) (ev_param hpx hctx.2.1) (ev_param hpy hctx.2.2.1) (ev_param hpz hctx.2.2.2)

theorem ev_inter_nil {f nil z v : Term} (hf : IsValue f) (hnil : IsValue nil) (hz : IsValue z) (hna : NotApp f nil)
    (h : ∀ (ctx : Ctx) (Nil : Term), EvaluatesTo env ctx Nil nil → EvaluatesTo env ctx (Nil) v) :
    EvaluatesTo env [] (call S.inter [f, nil, z]) v := by
  obtain ⟨pf, px, py, pz, pnil, ⟨hd, hnd⟩, hp⟩ := D.inter
  simp only [List.mem_cons, List.not_mem_nil, or_false, forall_eq_or_imp, forall_eq] at hd
  obtain ⟨hpf, hpx, hpy, hpz, hpnil⟩ := hd
  obtain ⟨σ, hσ⟩ := exists_sub [pf, px, py, pz, pnil] [f, f, f, z, nil] hnd rfl
  simp only [List.map_cons, List.map_nil, List.cons.injEq, and_true] at hσ
  refine run_case (pre := [_]) hp (by
    simp only [List.mem_cons, List.not_mem_nil, or_false, forall_eq_or_imp, forall_eq]; exact ⟨hf, hnil, hz⟩) σ ?_ ?_ ?_ [pnil] ?_ ⟨pnil, by simp, ?_⟩ ?_
  · simp only [List.mem_singleton, forall_eq]
    refine ⟨rfl, ?_⟩
    rintro ⟨τ, h⟩
    simp only [List.map_cons, List.map_nil, subst_bin, List.cons.injEq, and_true] at h
    have e := h.2.1.symm
    rw [h.1] at e
    exact hna _ _ [] [] e
  · simp only [List.mem_cons, List.not_mem_nil, or_false, forall_eq_or_imp, forall_eq]; exact ⟨anyFree_param hpf, anyFree_param hpnil, anyFree_param hpz⟩
  · simp [subst_param, subst_bin, hpf, hpnil, hpz, hσ]
  · simp only [List.mem_cons, List.not_mem_nil, or_false, forall_eq]; exact ⟨hpnil, pnil, by simp, .refl _⟩
  · exact .refl _
  · intro ctx hctx
    simp only [List.mem_cons, List.not_mem_nil, or_false, forall_eq_or_imp, forall_eq, hσ] at hctx
    exact h ctx _ (ev_param hpnil hctx)

theorem ev_nth_zero {f x y : Term} (hf : IsValue f) (hx : IsValue x) (hy : IsValue y) :
    EvaluatesTo env [] (call S.nth [f, bin f x y, int 0]) x := by
  obtain ⟨pf, px, py, pn, ⟨hd, hnd⟩, hp⟩ := D.nth
  simp only [List.mem_cons, List.not_mem_nil, or_false, forall_eq_or_imp, forall_eq] at hd
  obtain ⟨hpf, hpx, hpy, hpn⟩ := hd
  obtain ⟨σ, hσ⟩ := exists_sub [pf, px, py, pn] [f, x, y, f] hnd rfl
  simp only [List.map_cons, List.map_nil, List.cons.injEq, and_true] at hσ
  refine run_case (pre := []) hp (by
    simp only [List.mem_cons, List.not_mem_nil, or_false, forall_eq_or_imp, forall_eq]; exact ⟨hf, value_bin.mpr ⟨hf, hx, hy⟩, int_value _⟩) σ
    ?_ ?_ ?_ [px] ?_ ⟨px, by simp, .refl _⟩ ?_
  · simp
  · simp only [List.mem_cons, List.not_mem_nil, or_false, forall_eq_or_imp, forall_eq]
    exact ⟨anyFree_param hpf, anyFree_bin (anyFree_param hpf) (anyFree_param hpx) (anyFree_param hpy), anyFree_value (int_value _)⟩
  · simp [subst_param, subst_bin, hpf, hpx, hpy, hσ, int, subst]
  · simp only [List.mem_cons, List.not_mem_nil, or_false, forall_eq]; exact ⟨hpx, bin pf px py, by simp, sub_bin_x _ _ _⟩
  · intro ctx hctx
    simp only [List.mem_cons, List.not_mem_nil, or_false, forall_eq, hσ] at hctx
    exact ev_param hpx hctx

theorem ev_nth_succ {f x y n v : Term} (hf : IsValue f) (hx : IsValue x) (hy : IsValue y) (hn : IsValue n) (hn0 : n ≠ int 0)
    (h : ∀ (ctx : Ctx) (F Y N : Term), EvaluatesTo env ctx F f → EvaluatesTo env ctx Y y → EvaluatesTo env ctx N n →
      EvaluatesTo env ctx (call S.nth [F, Y, .node EVAL_ADD [N, int (-1)]]) v) :
    EvaluatesTo env [] (call S.nth [f, bin f x y, n]) v := by
  obtain ⟨pf, px, py, pn, ⟨hd, hnd⟩, hp⟩ := D.nth
  simp only [List.mem_cons, List.not_mem_nil, or_false, forall_eq_or_imp, forall_eq] at hd
  obtain ⟨hpf, hpx, hpy, hpn⟩ := hd
  obtain ⟨σ, hσ⟩ := exists_sub [pf, px, py, pn] [f, x, y, n] hnd rfl
  simp only [List.map_cons, List.map_nil, List.cons.injEq, and_true] at hσ
  refine run_case (pre := [_]) hp (by
    simp only [List.mem_cons, List.not_mem_nil, or_false, forall_eq_or_imp, forall_eq]; exact ⟨hf, value_bin.mpr ⟨hf, hx, hy⟩, hn⟩) σ
    ?_ ?_ ?_ [pf, py, pn] ?_ ⟨pf, by simp, ?_⟩ ?_
  · simp only [List.mem_singleton, forall_eq]
    refine ⟨rfl, ?_⟩
    rintro ⟨τ, h⟩
    simp only [List.map_cons, List.map_nil, List.cons.injEq, and_true, int, subst] at h
    exact hn0 h.2.2.symm
  · simp only [List.mem_cons, List.not_mem_nil, or_false, forall_eq_or_imp, forall_eq]
    exact ⟨anyFree_param hpf, anyFree_bin (anyFree_param hpf) (anyFree_param hpx) (anyFree_param hpy), anyFree_param hpn⟩
  · simp [subst_param, subst_bin, hpf, hpx, hpy, hpn, hσ]
  · simp only [List.mem_cons, List.not_mem_nil, or_false, forall_eq_or_imp, forall_eq]
    exact ⟨⟨hpf, pf, by simp, .refl _⟩, ⟨hpy, bin pf px py, by simp, sub_bin_y _ _ _⟩, ⟨hpn, pn, by simp, .refl _⟩⟩
  · sub_tac
  · intro ctx hctx
    simp only [List.mem_cons, List.not_mem_nil, or_false, forall_eq_or_imp, forall_eq, hσ] at hctx
    exact h ctx _ _ _ (ev_param hpf hctx.1) (ev_param hpy hctx.2.1) (ev_param hpn hctx.2.2)

omit D in
/-- a program without matching case stays -/
theorem run_none {p : Term} {cases : List (List Term × Term)} (hp : ProgramIs env p cases) {vs : List Term} (hv : ∀ a ∈ vs, IsValue a)
    (hno : ∀ d ∈ cases, d.1.length = vs.length ∧ ¬ ∃ τ, d.1.map (subst τ) = vs) : EvaluatesTo env [] (call p vs) (call p vs) := by
  have hr := C29_none env p vs _ hp.1 hp.defined hv (by
    intro d hd
    obtain ⟨q, hq, rfl⟩ := List.mem_map.mp hd
    exact hno q hq)
  rw [evaluatesTo_iff]
  exact (eval_prog OpResult.det ProgResult.det hp.1 (evalList_values [] _ hv) hr _).mpr rfl

omit D in
theorem call_not_value {p : Term} {vs : List Term} (hp : IsProg p) : ¬ IsValue (call p vs) :=
  fun h => notProg_of_value (fun s hs => h s (hs.trans (sub_of_mem (.head _) (.refl _)))) hp

theorem ev_nth_nil {f nil n : Term} (hf : IsValue f) (hnil : IsValue nil) (hna : NotApp f nil) (hn : IsValue n) :
    EvaluatesTo env [] (call S.nth [f, nil, n]) (call S.nth [f, nil, n]) := by
  obtain ⟨pf, px, py, pn, ⟨hd, hnd⟩, hp⟩ := D.nth
  refine run_none hp (by simp only [List.mem_cons, List.not_mem_nil, or_false, forall_eq_or_imp, forall_eq]; exact ⟨hf, hnil, hn⟩) ?_
  simp only [List.mem_cons, List.not_mem_nil, or_false, forall_eq_or_imp, forall_eq]
  constructor
  all_goals
    refine ⟨rfl, ?_⟩
    rintro ⟨τ, h⟩
    simp only [List.map_cons, List.map_nil, subst_bin, List.cons.injEq, and_true] at h
    have e := h.2.1.symm
    rw [h.1] at e
    exact hna _ _ [] [] e

theorem ev_minclude_cons {x y z v : Term} (hC : IsValue S.cons) (hx : IsValue x) (hy : IsValue y) (hz : IsValue z)
    (h : ∀ (ctx : Ctx) (X Y Z : Term), EvaluatesTo env ctx X x → EvaluatesTo env ctx Y y → EvaluatesTo env ctx Z z →
      EvaluatesTo env ctx (Spec.ite (eqDef S (eraseDef S S.cons Z X) Z) (boolVal false) (call S.minclude [Y, eraseDef S S.cons Z X])) v) :
    EvaluatesTo env [] (call S.minclude [bin S.cons x y, z]) v := by
  obtain ⟨px, py, pz, ⟨hd, hnd⟩, hp⟩ := D.minclude
  simp only [List.mem_cons, List.not_mem_nil, or_false, forall_eq_or_imp, forall_eq] at hd
  obtain ⟨hpx, hpy, hpz⟩ := hd
  obtain ⟨σ, hσ⟩ := exists_sub [px, py, pz] [x, y, z] hnd rfl
  simp only [List.map_cons, List.map_nil, List.cons.injEq, and_true] at hσ
  refine run_case (pre := []) hp (by
    simp only [List.mem_cons, List.not_mem_nil, or_false, forall_eq_or_imp, forall_eq]; exact ⟨value_bin.mpr ⟨hC, hx, hy⟩, hz⟩) σ
    ?_ ?_ ?_ [px, py, pz] ?_ ⟨px, by simp, ?_⟩ ?_
  · simp
  · simp only [List.mem_cons, List.not_mem_nil, or_false, forall_eq_or_imp, forall_eq]
    exact ⟨anyFree_bin (anyFree_value hC) (anyFree_param hpx) (anyFree_param hpy), anyFree_param hpz⟩
  · simp [subst_param, subst_bin, hpx, hpy, hpz, hσ, subst_of_value σ _ hC]
  · simp only [List.mem_cons, List.not_mem_nil, or_false, forall_eq_or_imp, forall_eq]
    exact ⟨⟨hpx, bin S.cons px py, by simp, sub_bin_x _ _ _⟩, ⟨hpy, bin S.cons px py, by simp, sub_bin_y _ _ _⟩, ⟨hpz, pz, by simp, .refl _⟩⟩
  · sub_tac
  · intro ctx hctx
    simp only [List.mem_cons, List.not_mem_nil, or_false, forall_eq_or_imp, forall_eq, hσ] at hctx
    exact h ctx _ _ _ (ev_param hpx hctx.1) (ev_param hpy hctx.2.1) (ev_param hpz hctx.2.2)

theorem ev_minclude_nil {z : Term} (hN : IsValue S.nilList) (hna : NotApp S.cons S.nilList) (hC : IsValue S.cons) (hz : IsValue z) :
    EvaluatesTo env [] (call S.minclude [S.nilList, z]) (boolVal true) := by
  obtain ⟨px, py, pz, ⟨hd, hnd⟩, hp⟩ := D.minclude
  simp only [List.mem_cons, List.not_mem_nil, or_false, forall_eq_or_imp, forall_eq] at hd
  obtain ⟨hpx, hpy, hpz⟩ := hd
  obtain ⟨σ, hσ⟩ := exists_sub [px, py, pz] [z, z, z] hnd rfl
  simp only [List.map_cons, List.map_nil, List.cons.injEq, and_true] at hσ
  refine run_const (pre := [_]) hp (by
    simp only [List.mem_cons, List.not_mem_nil, or_false, forall_eq_or_imp, forall_eq]; exact ⟨hN, hz⟩) σ ?_ ?_ ?_ (bool_value _)
  · simp only [List.mem_singleton, forall_eq]
    refine ⟨rfl, ?_⟩
    rintro ⟨τ, h⟩
    simp only [List.map_cons, List.map_nil, subst_bin, List.cons.injEq, and_true, subst_of_value τ _ hC] at h
    exact hna _ _ [] [] h.1.symm
  · simp only [List.mem_cons, List.not_mem_nil, or_false, forall_eq_or_imp, forall_eq]; exact ⟨anyFree_value hN, anyFree_param hpz⟩
  · simp [subst_param, hpz, hσ, subst_of_value σ _ hN]

theorem ev_single_one {f nil x : Term} (hf : IsValue f) (hnil : IsValue nil) (hx : IsValue x) :
    EvaluatesTo env [] (call S.single [f, nil, bin f x nil]) x := by
  obtain ⟨pf, px, pz, pn, ⟨hd, hnd⟩, hp⟩ := D.single
  simp only [List.mem_cons, List.not_mem_nil, or_false, forall_eq_or_imp, forall_eq] at hd
  obtain ⟨hpf, hpx, hpz, hpn⟩ := hd
  obtain ⟨σ, hσ⟩ := exists_sub [pf, px, pz, pn] [f, x, f, nil] hnd rfl
  simp only [List.map_cons, List.map_nil, List.cons.injEq, and_true] at hσ
  refine run_case (pre := []) hp (by
    simp only [List.mem_cons, List.not_mem_nil, or_false, forall_eq_or_imp, forall_eq]; exact ⟨hf, hnil, value_bin.mpr ⟨hf, hx, hnil⟩⟩) σ
    ?_ ?_ ?_ [px] ?_ ⟨px, by simp, .refl _⟩ ?_
  · simp
  · simp only [List.mem_cons, List.not_mem_nil, or_false, forall_eq_or_imp, forall_eq]
    exact ⟨anyFree_param hpf, anyFree_param hpn, anyFree_bin (anyFree_param hpf) (anyFree_param hpx) (anyFree_param hpn)⟩
  · simp [subst_param, subst_bin, hpf, hpx, hpn, hσ]
  · simp only [List.mem_cons, List.not_mem_nil, or_false, forall_eq]; exact ⟨hpx, bin pf px pn, by simp, sub_bin_x _ _ _⟩
  · intro ctx hctx
    simp only [List.mem_cons, List.not_mem_nil, or_false, forall_eq, hσ] at hctx
    exact ev_param hpx hctx

theorem ev_single_other {f nil z : Term} (hf : IsValue f) (hnil : IsValue nil) (hz : IsValue z) (hno : ∀ x, z ≠ bin f x nil) :
    EvaluatesTo env [] (call S.single [f, nil, z]) z := by
  obtain ⟨pf, px, pz, pn, ⟨hd, hnd⟩, hp⟩ := D.single
  simp only [List.mem_cons, List.not_mem_nil, or_false, forall_eq_or_imp, forall_eq] at hd
  obtain ⟨hpf, hpx, hpz, hpn⟩ := hd
  obtain ⟨σ, hσ⟩ := exists_sub [pf, px, pz, pn] [f, f, z, nil] hnd rfl
  simp only [List.map_cons, List.map_nil, List.cons.injEq, and_true] at hσ
  refine run_case (pre := [_]) hp (by
    simp only [List.mem_cons, List.not_mem_nil, or_false, forall_eq_or_imp, forall_eq]; exact ⟨hf, hnil, hz⟩) σ
    ?_ ?_ ?_ [pz] ?_ ⟨pz, by simp, .refl _⟩ ?_
  · simp only [List.mem_singleton, forall_eq]
    refine ⟨rfl, ?_⟩
    rintro ⟨τ, h⟩
    simp only [List.map_cons, List.map_nil, subst_bin, List.cons.injEq, and_true] at h
    exact hno _ (by rw [← h.2.2, h.1, h.2.1])
  · simp only [List.mem_cons, List.not_mem_nil, or_false, forall_eq_or_imp, forall_eq]
    exact ⟨anyFree_param hpf, anyFree_param hpn, anyFree_param hpz⟩
  · simp [subst_param, hpf, hpz, hpn, hσ]
  · simp only [List.mem_cons, List.not_mem_nil, or_false, forall_eq]; exact ⟨hpz, pz, by simp, .refl _⟩
  · intro ctx hctx
    simp only [List.mem_cons, List.not_mem_nil, or_false, forall_eq, hσ] at hctx
    exact ev_param hpz hctx

end
end Ethos.Props
