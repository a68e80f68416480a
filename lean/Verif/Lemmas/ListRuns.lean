import Verif.Lemmas.ListProgs
/- What the programs of eo-definitions.eo return on f-lists. -/
namespace Ethos.Props
open Ethos Kind Spec

theorem _root_.Ethos.Spec.NilOn.mono {env : Env} {S : ListSyms} {f nil : Term} {xs zs : List Term} (h : NilOn env S f nil xs) (hs : ∀ z ∈ zs, z ∈ xs) :
    NilOn env S f nil zs := fun ys hy => h ys fun y hm => hs y (hy y hm)

theorem eraseFirst_mem {x y : Term} : ∀ {xs : List Term}, y ∈ eraseFirst x xs → y ∈ xs
  | [], h => by simp [eraseFirst] at h
  | z :: xs, h => by
    rw [eraseFirst] at h
    split at h
    · exact List.mem_cons_of_mem _ h
    · rcases List.mem_cons.mp h with rfl | h
      · simp
      · exact List.mem_cons_of_mem _ (eraseFirst_mem h)

theorem eraseFirst_eq_iff (x : Term) : ∀ xs : List Term, eraseFirst x xs = xs ↔ x ∉ xs
  | [] => by simp [eraseFirst]
  | y :: xs => by
    rw [eraseFirst]
    split
    · rename_i h
      subst h
      constructor
      · intro e
        have := congrArg List.length e
        simp at this
      · simp
    · rename_i h
      have h' : ¬ x = y := fun e => h e.symm
      simp [eraseFirst_eq_iff x xs, h']

theorem setOf_filter (p : Term → Bool) : ∀ xs : List Term, setOf (xs.filter p) = (setOf xs).filter p
  | [] => rfl
  | x :: xs => by
    rw [setOf]
    by_cases h : p x = true
    · rw [List.filter_cons_of_pos h, setOf, setOf_filter p xs, List.filter_cons_of_pos h, List.filter_filter, List.filter_filter]
      congr 1
      exact List.filter_congr fun a _ => by rw [Bool.and_comm]
    · rw [List.filter_cons_of_neg h, List.filter_cons_of_neg h, setOf_filter p xs, List.filter_filter]
      refine List.filter_congr fun a _ => ?_
      cases ha : p a with
      | false => rfl
      | true =>
        have : a ≠ x := by rintro rfl; exact h ha
        simp [this]

theorem rlist_onto (f nil : Term) : ∀ xs ys : List Term, rlist f (rlist f nil ys) xs = rlist f nil (xs ++ ys)
  | [], _ => rfl
  | x :: xs, ys => by simp [rlist, rlist_onto f nil xs ys]

section
variable {env : Env} {S : ListSyms} (D : ListDefs env S)
include D

theorem ev_isList_cons {f nil x y v : Term} (hf : IsValue f) (hnil : IsValue nil) (hx : IsValue x) (hy : IsValue y)
    (h : ∀ (ctx : Ctx) (F Y Nil : Term), EvaluatesTo env ctx F f → EvaluatesTo env ctx Y y → EvaluatesTo env ctx Nil nil → EvaluatesTo env ctx (call S.isList [F, Nil, Y]) v) :
    EvaluatesTo env [] (call S.isList [f, nil, bin f x y]) v := by
  obtain ⟨pf, px, py, pnil, pz, ⟨hd, hnd⟩, hp⟩ := D.isList
  simp only [List.mem_cons, List.not_mem_nil, or_false, forall_eq_or_imp, forall_eq] at hd
  obtain ⟨hpf, hpx, hpy, hpnil, hpz⟩ := hd
  obtain ⟨σ, hσ⟩ := exists_sub [pf, px, py, pnil, pz] [f, x, y, nil, f] hnd rfl
  simp only [List.map_cons, List.map_nil, List.cons.injEq, and_true] at hσ
  refine run_case (pre := []) hp (by
    simp only [List.mem_cons, List.not_mem_nil, or_false, forall_eq_or_imp, forall_eq]; exact ⟨hf, hnil, value_bin.mpr ⟨hf, hx, hy⟩⟩) σ ?_ ?_ ?_ [pf, py, pnil] ?_ ⟨pf, by simp, ?_⟩ ?_
  · simp
  · simp only [List.mem_cons, List.not_mem_nil, or_false, forall_eq_or_imp, forall_eq]; exact ⟨anyFree_param hpf, anyFree_param hpnil, anyFree_bin (anyFree_param hpf) (anyFree_param hpx) (anyFree_param hpy)⟩
  · simp [subst_param, subst_bin, hpf, hpnil, hpx, hpy, hσ]
  · simp only [List.mem_cons, List.not_mem_nil, or_false, forall_eq_or_imp, forall_eq]; exact ⟨⟨hpf, pf, by simp, .refl _⟩, ⟨hpy, bin pf px py, by simp, sub_bin_y _ _ _⟩, ⟨hpnil, pnil, by simp, .refl _⟩⟩
  · sub_tac
  · intro ctx hctx
    simp only [List.mem_cons, List.not_mem_nil, or_false, forall_eq_or_imp, forall_eq, hσ] at hctx
    exact h ctx _ _ _ (ev_param hpf hctx.1) (ev_param hpy hctx.2.1) (ev_param hpnil hctx.2.2)
section
variable {f nil : Term} (hf : IsValue f) (hn : IsValue nil) (hna : NotApp f nil)
include hf hn hna

theorem ev_isList_true : ∀ xs : List Term, (∀ x ∈ xs, IsValue x) → EvaluatesTo env [] (call S.isList [f, nil, rlist f nil xs]) (boolVal true)
  | [], _ => by
    obtain ⟨pf, px, py, pn, pz, ⟨hd, hnd⟩, hp⟩ := D.isList
    simp only [List.mem_cons, List.not_mem_nil, or_false, forall_eq_or_imp, forall_eq] at hd
    obtain ⟨hpf, hpx, hpy, hpn, hpz⟩ := hd
    obtain ⟨σ, hσ⟩ := exists_sub [pf, px, py, pn, pz] [f, nil, nil, nil, nil] hnd rfl
    simp only [List.map_cons, List.map_nil, List.cons.injEq, and_true] at hσ
    refine run_case (pre := [_]) hp (by
      simp only [List.mem_cons, List.not_mem_nil, or_false, forall_eq_or_imp, forall_eq]; exact ⟨hf, hn, hn⟩) σ ?_ ?_ ?_ [pn, pz] ?_
      ⟨pn, by simp, sub_of_mem (c := pn) (by simp) (.refl _)⟩ ?_
    · simp only [List.mem_singleton, forall_eq]
      refine ⟨rfl, ?_⟩
      rintro ⟨τ, h⟩
      simp only [List.map_cons, List.map_nil, subst_bin, List.cons.injEq, and_true] at h
      have e := h.2.2.symm
      rw [h.1] at e
      exact hna _ _ [] [] e
    · simpa using ⟨anyFree_param hpf, anyFree_param hpn, anyFree_param hpz⟩
    · simp [subst_param, hpf, hpn, hpz, hσ, rlist]
    · simp only [List.mem_cons, List.not_mem_nil, or_false, forall_eq_or_imp, forall_eq]
      exact ⟨⟨hpn, pn, by simp, .refl _⟩, ⟨hpz, pz, by simp, .refl _⟩⟩
    · intro ctx hctx
      simp only [List.mem_cons, List.not_mem_nil, or_false, forall_eq_or_imp, forall_eq, hσ] at hctx
      have := ev_eqDef D (ev_param hpn hctx.1) (ev_param hpz hctx.2) hn hn
      simpa using this
  | x :: xs, hx => by
    have hv := (value_rlist hf hn xs).mpr fun y hy => hx y (by simp [hy])
    obtain ⟨_, _, _, _, _, _, hp⟩ := D.isList
    refine ev_isList_cons D hf hn (hx x (by simp)) hv fun ctx F Y N h1 h2 h3 => ?_
    exact (ev_call hp [(F, f), (N, nil), (Y, rlist f nil xs)] (by
      simp only [List.mem_cons, List.not_mem_nil, or_false, forall_eq_or_imp, forall_eq]; exact ⟨h1, h3, h2⟩) (by
      simp only [List.mem_cons, List.not_mem_nil, or_false, forall_eq_or_imp, forall_eq]; exact ⟨hf, hn, hv⟩) _).mpr
      (ev_isList_true xs fun y hy => hx y (by simp [hy]))

theorem ev_isListDef_true {ctx : Ctx} {F A : Term} {xs : List Term} (h1 : EvaluatesTo env ctx F f) (h2 : EvaluatesTo env ctx A (rlist f nil xs))
    (hx : ∀ x ∈ xs, IsValue x) (hnd : EvaluatesTo env [] (nilDef S f (rlist f nil xs)) nil) :
    EvaluatesTo env ctx (isListDef S F A) (boolVal true) := by
  have hv := (value_rlist hf hn xs).mpr hx
  obtain ⟨_, _, _, _, _, _, hp⟩ := D.isList
  exact (ev_call hp [(F, f), (nilDef S F A, nil), (A, rlist f nil xs)] (by
    simp only [List.mem_cons, List.not_mem_nil, or_false, forall_eq_or_imp, forall_eq]
    exact ⟨h1, ev_nilDef D h1 h2 hf hv hnd, h2⟩) (by
    simp only [List.mem_cons, List.not_mem_nil, or_false, forall_eq_or_imp, forall_eq]; exact ⟨hf, hn, hv⟩) _).mpr
    (ev_isList_true D hf hn hna xs hx)

theorem ev_len : ∀ xs : List Term, (∀ x ∈ xs, IsValue x) → EvaluatesTo env [] (call S.len [f, rlist f nil xs]) (int xs.length)
  | [], _ => ev_len_nil D hf hn hna
  | x :: xs, hx => by
    have hv := (value_rlist hf hn xs).mpr fun y hy => hx y (by simp [hy])
    obtain ⟨_, _, _, _, _, hp⟩ := D.len
    refine ev_len_cons D hf (hx x (by simp)) hv fun ctx F Y h1 h2 => ?_
    have h3 := (ev_call hp [(F, f), (Y, rlist f nil xs)] (by simpa using ⟨h1, h2⟩) (by simpa using ⟨hf, hv⟩) _).mpr
      (ev_len xs fun y hy => hx y (by simp [hy]))
    have := ev_add (value_eval env ctx _ (int_value 1)) h3
    have e : (1 : Int) + xs.length = ((x :: xs).length : Int) := by simp; omega
    rw [e] at this
    exact this

theorem ev_concat {z : Term} (hz : IsValue z) : ∀ xs : List Term, (∀ x ∈ xs, IsValue x) →
    EvaluatesTo env [] (call S.concat [f, rlist f nil xs, z]) (rlist f z xs)
  | [], _ => ev_concat_nil D hf hn hz hna fun ctx Z h => h
  | x :: xs, hx => by
    have hv := (value_rlist hf hn xs).mpr fun y hy => hx y (by simp [hy])
    obtain ⟨_, _, _, _, _, _, hp⟩ := D.concat
    refine ev_concat_cons D hf (hx x (by simp)) hv hz fun ctx F X Y Z h1 h2 h3 h4 => ?_
    refine ev_bin hf h1 h2 ((ev_call hp [(F, f), (Y, rlist f nil xs), (Z, z)] (by
      simp only [List.mem_cons, List.not_mem_nil, or_false, forall_eq_or_imp, forall_eq]; exact ⟨h1, h3, h4⟩) (by
      simp only [List.mem_cons, List.not_mem_nil, or_false, forall_eq_or_imp, forall_eq]; exact ⟨hf, hv, hz⟩) _).mpr
      (ev_concat hz xs fun y hy => hx y (by simp [hy])))

theorem ev_rev : ∀ (xs : List Term) (acc : Term), (∀ x ∈ xs, IsValue x) → IsValue acc →
    EvaluatesTo env [] (call S.rev [f, rlist f nil xs, acc]) (rlist f acc xs.reverse)
  | [], acc, _, ha => ev_rev_nil D hf hn ha hna fun ctx Z h => h
  | x :: xs, acc, hx, ha => by
    have hv := (value_rlist hf hn xs).mpr fun y hy => hx y (by simp [hy])
    have hxv := hx x (by simp)
    obtain ⟨_, _, _, _, _, _, hp⟩ := D.rev
    refine ev_rev_cons D hf hxv hv ha fun ctx F X Y A h1 h2 h3 h4 => ?_
    have ih := ev_rev xs (bin f x acc) (fun y hy => hx y (by simp [hy])) (value_bin.mpr ⟨hf, hxv, ha⟩)
    have e : rlist f (bin f x acc) xs.reverse = rlist f acc (x :: xs).reverse := by
      have : bin f x acc = rlist f acc [x] := rfl
      rw [this, rlist_onto]; simp
    rw [e] at ih
    exact (ev_call hp [(F, f), (Y, rlist f nil xs), (bin F X A, bin f x acc)] (by
      simp only [List.mem_cons, List.not_mem_nil, or_false, forall_eq_or_imp, forall_eq]; exact ⟨h1, h3, ev_bin hf h1 h2 h4⟩) (by
      simp only [List.mem_cons, List.not_mem_nil, or_false, forall_eq_or_imp, forall_eq]; exact ⟨hf, hv, value_bin.mpr ⟨hf, hxv, ha⟩⟩) _).mpr ih


/-- the numeral that `find` returns, counted from `n` -/
def findFrom (n : Int) : Option Nat → Term
  | some i => int (n + i)
  | none => int (-1)

theorem ev_find {z : Term} (hz : IsValue z) : ∀ (xs : List Term) (n : Int), (∀ x ∈ xs, IsValue x) →
    EvaluatesTo env [] (call S.find [f, rlist f nil xs, z, int n]) (findFrom n (indexOf z xs))
  | [], n, _ => ev_find_nil D hf hn hz (int_value n) hna
  | x :: xs, n, hx => by
    have hv := (value_rlist hf hn xs).mpr fun y hy => hx y (by simp [hy])
    have hxv := hx x (by simp)
    obtain ⟨_, _, _, _, _, _, _, hp⟩ := D.find
    refine ev_find_cons D hf hxv hv hz (int_value n) fun ctx F X Y Z N h1 h2 h3 h4 h5 => ?_
    refine (C32_lazy env ctx _ _ _ _ (ev_eqDef D h2 h4 hxv hz) _).mpr ?_
    rw [indexOf]
    by_cases he : x = z
    · simpa [he, findFrom] using h5
    · simp only [he, decide_false, Bool.false_eq_true, if_false]
      have ih := ev_find hz xs (n + 1) fun y hy => hx y (by simp [hy])
      have e : ∀ o : Option Nat, findFrom (n + 1) o = findFrom n (o.map (fun j : Nat => j + 1)) := by
        intro o
        cases o with
        | none => rfl
        | some i => simp only [Option.map_some, findFrom]; congr 1; omega
      rw [e] at ih
      exact (ev_call hp [(F, f), (Y, rlist f nil xs), (Z, z), (.node EVAL_ADD [N, int 1], int (n + 1))] (by
        simp only [List.mem_cons, List.not_mem_nil, or_false, forall_eq_or_imp, forall_eq]
        exact ⟨h1, h3, h4, ev_add h5 (value_eval _ _ _ (int_value 1))⟩) (by
        simp only [List.mem_cons, List.not_mem_nil, or_false, forall_eq_or_imp, forall_eq]; exact ⟨hf, hv, hz, int_value _⟩) _).mpr ih

theorem ev_erase {z : Term} (hz : IsValue z) : ∀ (xs : List Term), (∀ x ∈ xs, IsValue x) →
    EvaluatesTo env [] (call S.erase [f, rlist f nil xs, z]) (rlist f nil (eraseFirst z xs))
  | [], _ => ev_erase_nil D hf hn hz hna fun ctx Z h => h
  | x :: xs, hx => by
    have hv := (value_rlist hf hn xs).mpr fun y hy => hx y (by simp [hy])
    have hxv := hx x (by simp)
    obtain ⟨_, _, _, _, _, _, hp⟩ := D.erase
    refine ev_erase_cons D hf hxv hv hz fun ctx F X Y Z h1 h2 h3 h4 => ?_
    refine (C32_lazy env ctx _ _ _ _ (ev_eqDef D h4 h2 hz hxv) _).mpr ?_
    rw [eraseFirst]
    by_cases he : z = x
    · simpa [he] using h3
    · have he' : ¬ x = z := fun e => he e.symm
      simp only [he, he', decide_false, Bool.false_eq_true, if_false, rlist]
      exact ev_bin hf h1 h2 ((ev_call hp [(F, f), (Y, rlist f nil xs), (Z, z)] (by
        simp only [List.mem_cons, List.not_mem_nil, or_false, forall_eq_or_imp, forall_eq]; exact ⟨h1, h3, h4⟩) (by
        simp only [List.mem_cons, List.not_mem_nil, or_false, forall_eq_or_imp, forall_eq]; exact ⟨hf, hv, hz⟩) _).mpr
        (ev_erase hz xs fun y hy => hx y (by simp [hy])))

theorem ev_eraseAll {z : Term} (hz : IsValue z) : ∀ (xs : List Term), (∀ x ∈ xs, IsValue x) →
    EvaluatesTo env [] (call S.eraseAll [f, rlist f nil xs, z]) (rlist f nil (xs.filter fun y => decide (y ≠ z)))
  | [], _ => ev_eraseAll_nil D hf hn hz hna fun ctx Z h => h
  | x :: xs, hx => by
    have hv := (value_rlist hf hn xs).mpr fun y hy => hx y (by simp [hy])
    have hxv := hx x (by simp)
    obtain ⟨_, _, _, _, _, _, hp⟩ := D.eraseAll
    refine ev_eraseAll_cons D hf hxv hv hz fun ctx F X Y Z h1 h2 h3 h4 => ?_
    have ih := (ev_call hp [(F, f), (Y, rlist f nil xs), (Z, z)] (by
        simp only [List.mem_cons, List.not_mem_nil, or_false, forall_eq_or_imp, forall_eq]; exact ⟨h1, h3, h4⟩) (by
        simp only [List.mem_cons, List.not_mem_nil, or_false, forall_eq_or_imp, forall_eq]; exact ⟨hf, hv, hz⟩) _).mpr
        (ev_eraseAll hz xs fun y hy => hx y (by simp [hy]))
    refine (C32_lazy env ctx _ _ _ _ (ev_eqDef D h4 h2 hz hxv) _).mpr ?_
    by_cases he : z = x
    · rw [List.filter_cons_of_neg (by simp [he])]
      simp only [he, decide_true, if_true] at ih ⊢
      exact ih
    · have he' : ¬ x = z := fun e => he e.symm
      rw [List.filter_cons_of_pos (by simp [he'])]
      simp only [he, decide_false, Bool.false_eq_true, if_false, rlist]
      exact ev_bin hf h1 h2 ih

theorem ev_eraseDef {ctx : Ctx} {F A E e : Term} {xs : List Term} (h1 : EvaluatesTo env ctx F f) (h2 : EvaluatesTo env ctx A (rlist f nil xs))
    (h3 : EvaluatesTo env ctx E e) (hx : ∀ x ∈ xs, IsValue x) (he : IsValue e) (hnd : EvaluatesTo env [] (nilDef S f (rlist f nil xs)) nil) :
    EvaluatesTo env ctx (eraseDef S F A E) (rlist f nil (eraseFirst e xs)) := by
  obtain ⟨_, _, _, _, _, _, hp⟩ := D.erase
  have hv := (value_rlist hf hn xs).mpr hx
  refine (ev_guarded (ev_isListDef_true D hf hn hna h1 h2 hx hnd) ((value_rlist hf hn _).mpr fun y hy => hx y (eraseFirst_mem hy))).mpr ⟨rfl, ?_⟩
  exact (ev_call hp [(F, f), (A, rlist f nil xs), (E, e)] (by
    simp only [List.mem_cons, List.not_mem_nil, or_false, forall_eq_or_imp, forall_eq]; exact ⟨h1, h2, h3⟩) (by
    simp only [List.mem_cons, List.not_mem_nil, or_false, forall_eq_or_imp, forall_eq]; exact ⟨hf, hv, he⟩) _).mpr (ev_erase D hf hn hna he xs hx)

theorem ev_eraseAllDef {ctx : Ctx} {F A E e : Term} {xs : List Term} (h1 : EvaluatesTo env ctx F f) (h2 : EvaluatesTo env ctx A (rlist f nil xs))
    (h3 : EvaluatesTo env ctx E e) (hx : ∀ x ∈ xs, IsValue x) (he : IsValue e) (hnd : EvaluatesTo env [] (nilDef S f (rlist f nil xs)) nil) :
    EvaluatesTo env ctx (eraseAllDef S F A E) (rlist f nil (xs.filter fun y => decide (y ≠ e))) := by
  obtain ⟨_, _, _, _, _, _, hp⟩ := D.eraseAll
  have hv := (value_rlist hf hn xs).mpr hx
  refine (ev_guarded (ev_isListDef_true D hf hn hna h1 h2 hx hnd) ((value_rlist hf hn _).mpr fun y hy => hx y ((List.mem_filter.mp hy).1))).mpr ⟨rfl, ?_⟩
  exact (ev_call hp [(F, f), (A, rlist f nil xs), (E, e)] (by
    simp only [List.mem_cons, List.not_mem_nil, or_false, forall_eq_or_imp, forall_eq]; exact ⟨h1, h2, h3⟩) (by
    simp only [List.mem_cons, List.not_mem_nil, or_false, forall_eq_or_imp, forall_eq]; exact ⟨hf, hv, he⟩) _).mpr (ev_eraseAll D hf hn hna he xs hx)

theorem ev_setof : ∀ (n : Nat) (xs : List Term), xs.length ≤ n → (∀ x ∈ xs, IsValue x) → NilOn env S f nil xs →
    EvaluatesTo env [] (call S.setof [f, rlist f nil xs]) (rlist f nil (setOf xs))
  | _, [], _, _, _ => ev_setof_nil D hf hn hna fun ctx Z h => h
  | 0, _ :: _, h, _, _ => by simp at h
  | n+1, x :: xs, hl, hx, hN => by
    have hv := (value_rlist hf hn xs).mpr fun y hy => hx y (by simp [hy])
    have hxv := hx x (by simp)
    obtain ⟨_, _, _, _, _, hp⟩ := D.setof
    refine ev_setof_cons D hf hxv hv fun ctx F X Y h1 h2 h3 => ?_
    have he := ev_eraseAllDef D hf hn hna h1 h3 h2 (fun y hy => hx y (by simp [hy])) hxv (hN xs fun y hy => by simp [hy])
    have hsub : ∀ y ∈ xs.filter (fun y => decide (y ≠ x)), y ∈ x :: xs := fun y hy => List.mem_cons_of_mem _ (List.mem_filter.mp hy).1
    have hl' : (xs.filter fun y => decide (y ≠ x)).length ≤ n :=
      Nat.le_trans (List.length_filter_le _ _) (by simpa using hl)
    have ih := ev_setof n (xs.filter fun y => decide (y ≠ x)) hl' (fun y hy => hx y (hsub y hy)) (hN.mono hsub)
    rw [setOf_filter] at ih
    refine ev_bin hf h1 h2 ((ev_call hp [(F, f), (eraseAllDef S F Y X, rlist f nil (xs.filter fun y => decide (y ≠ x)))] (by
        simp only [List.mem_cons, List.not_mem_nil, or_false, forall_eq_or_imp, forall_eq]; exact ⟨h1, he⟩) (by
        simp only [List.mem_cons, List.not_mem_nil, or_false, forall_eq_or_imp, forall_eq]
        exact ⟨hf, (value_rlist hf hn _).mpr fun y hy => hx y (hsub y hy)⟩) _).mpr ih)

theorem ev_diff : ∀ (xs zs : List Term), (∀ x ∈ xs, IsValue x) → (∀ x ∈ zs, IsValue x) → NilOn env S f nil zs →
    EvaluatesTo env [] (call S.diff [f, rlist f nil xs, rlist f nil zs]) (rlist f nil (mdiff xs zs))
  | [], zs, _, hz, _ => ev_diff_nil D hf hn ((value_rlist hf hn zs).mpr hz) hna fun ctx Z h => h
  | x :: xs, zs, hx, hz, hN => by
    have hv := (value_rlist hf hn xs).mpr fun y hy => hx y (by simp [hy])
    have hzv := (value_rlist hf hn zs).mpr hz
    have hxv := hx x (by simp)
    have hzv' := (value_rlist hf hn (eraseFirst x zs)).mpr fun y hy => hz y (eraseFirst_mem hy)
    obtain ⟨_, _, _, _, _, _, hp⟩ := D.diff
    refine ev_diff_cons D hf hxv hv hzv fun ctx F X Y Z h1 h2 h3 h4 => ?_
    have he := ev_eraseDef D hf hn hna h1 h4 h2 hz hxv (hN zs fun y hy => hy)
    have ih := (ev_call hp [(F, f), (Y, rlist f nil xs), (eraseDef S F Z X, rlist f nil (eraseFirst x zs))] (by
        simp only [List.mem_cons, List.not_mem_nil, or_false, forall_eq_or_imp, forall_eq]; exact ⟨h1, h3, he⟩) (by
        simp only [List.mem_cons, List.not_mem_nil, or_false, forall_eq_or_imp, forall_eq]; exact ⟨hf, hv, hzv'⟩) _).mpr
        (ev_diff xs (eraseFirst x zs) (fun y hy => hx y (by simp [hy])) (fun y hy => hz y (eraseFirst_mem hy)) (hN.mono fun y hy => eraseFirst_mem hy))
    refine (C32_lazy env ctx _ _ _ _ (ev_eqDef D he h4 hzv' hzv) _).mpr ?_
    rw [mdiff]
    have hiff : rlist f nil (eraseFirst x zs) = rlist f nil zs ↔ x ∉ zs := by
      rw [C14_injective f nil hna, eraseFirst_eq_iff]
    by_cases hm : x ∈ zs
    · have : ¬ rlist f nil (eraseFirst x zs) = rlist f nil zs := fun e => hiff.mp e hm
      simp only [this, decide_false, Bool.false_eq_true, if_false, hm, if_true]
      exact ih
    · have : rlist f nil (eraseFirst x zs) = rlist f nil zs := hiff.mpr hm
      simp only [this, decide_true, if_true, hm, if_false, rlist]
      rw [(eraseFirst_eq_iff x zs).mpr hm] at ih
      exact ev_bin hf h1 h2 ih

theorem ev_inter : ∀ (xs zs : List Term), (∀ x ∈ xs, IsValue x) → (∀ x ∈ zs, IsValue x) → NilOn env S f nil zs →
    EvaluatesTo env [] (call S.inter [f, rlist f nil xs, rlist f nil zs]) (rlist f nil (minter xs zs))
  | [], zs, _, hz, _ => ev_inter_nil D hf hn ((value_rlist hf hn zs).mpr hz) hna fun ctx Z h => h
  | x :: xs, zs, hx, hz, hN => by
    have hv := (value_rlist hf hn xs).mpr fun y hy => hx y (by simp [hy])
    have hzv := (value_rlist hf hn zs).mpr hz
    have hxv := hx x (by simp)
    have hzv' := (value_rlist hf hn (eraseFirst x zs)).mpr fun y hy => hz y (eraseFirst_mem hy)
    obtain ⟨_, _, _, _, _, _, hp⟩ := D.inter
    refine ev_inter_cons D hf hxv hv hzv fun ctx F X Y Z h1 h2 h3 h4 => ?_
    have he := ev_eraseDef D hf hn hna h1 h4 h2 hz hxv (hN zs fun y hy => hy)
    have ih := (ev_call hp [(F, f), (Y, rlist f nil xs), (eraseDef S F Z X, rlist f nil (eraseFirst x zs))] (by
        simp only [List.mem_cons, List.not_mem_nil, or_false, forall_eq_or_imp, forall_eq]; exact ⟨h1, h3, he⟩) (by
        simp only [List.mem_cons, List.not_mem_nil, or_false, forall_eq_or_imp, forall_eq]; exact ⟨hf, hv, hzv'⟩) _).mpr
        (ev_inter xs (eraseFirst x zs) (fun y hy => hx y (by simp [hy])) (fun y hy => hz y (eraseFirst_mem hy)) (hN.mono fun y hy => eraseFirst_mem hy))
    refine (C32_lazy env ctx _ _ _ _ (ev_eqDef D he h4 hzv' hzv) _).mpr ?_
    rw [minter]
    have hiff : rlist f nil (eraseFirst x zs) = rlist f nil zs ↔ x ∉ zs := by
      rw [C14_injective f nil hna, eraseFirst_eq_iff]
    by_cases hm : x ∈ zs
    · have : ¬ rlist f nil (eraseFirst x zs) = rlist f nil zs := fun e => hiff.mp e hm
      simp only [this, decide_false, Bool.false_eq_true, if_false, hm, if_true, rlist]
      exact ev_bin hf h1 h2 ih
    · have : rlist f nil (eraseFirst x zs) = rlist f nil zs := hiff.mpr hm
      simp only [this, decide_true, if_true, hm, if_false]
      rw [(eraseFirst_eq_iff x zs).mpr hm] at ih
      exact ih


/-- the element of a singleton list, the list otherwise -/
def elimSingle (f nil : Term) : List Term → Term
  | [x] => x
  | xs => rlist f nil xs

theorem ev_single (xs : List Term) (hx : ∀ x ∈ xs, IsValue x) :
    EvaluatesTo env [] (call S.single [f, nil, rlist f nil xs]) (elimSingle f nil xs) := by
  have hv := (value_rlist hf hn xs).mpr hx
  match xs with
  | [] => exact ev_single_other D hf hn hv fun x h => hna x nil [] [] h
  | [x] => exact ev_single_one D hf hn (hx x (by simp))
  | x :: y :: xs =>
    refine ev_single_other D hf hn hv fun x' h => ?_
    simp only [rlist, bin, Term.node.injEq, List.cons.injEq, and_true, true_and] at h
    exact hna _ _ [] [] h.2.symm


theorem ev_nth_in : ∀ (xs : List Term) (i : Nat) (h : i < xs.length), (∀ x ∈ xs, IsValue x) →
    EvaluatesTo env [] (call S.nth [f, rlist f nil xs, int i]) xs[i]
  | [], i, h, _ => by simp at h
  | x :: xs, 0, _, hx => ev_nth_zero D hf (hx x (by simp)) ((value_rlist hf hn xs).mpr fun y hy => hx y (by simp [hy]))
  | x :: xs, i+1, h, hx => by
    have hv := (value_rlist hf hn xs).mpr fun y hy => hx y (by simp [hy])
    obtain ⟨_, _, _, _, _, hp⟩ := D.nth
    refine ev_nth_succ D hf (hx x (by simp)) hv (int_value _) (by simp [int]; omega) fun ctx F Y N h1 h2 h3 => ?_
    have h4 := ev_add h3 (value_eval env ctx _ (int_value (-1)))
    have e : ((i + 1 : Nat) : Int) + -1 = i := by omega
    rw [e] at h4
    exact (ev_call hp [(F, f), (Y, rlist f nil xs), (.node EVAL_ADD [N, int (-1)], int i)] (by
      simp only [List.mem_cons, List.not_mem_nil, or_false, forall_eq_or_imp, forall_eq]; exact ⟨h1, h2, h4⟩) (by
      simp only [List.mem_cons, List.not_mem_nil, or_false, forall_eq_or_imp, forall_eq]; exact ⟨hf, hv, int_value _⟩) _).mpr
      (ev_nth_in xs i (by simpa using h) fun y hy => hx y (by simp [hy]))

theorem ev_nth_out : ∀ (xs : List Term) (n : Term), IsValue n → (∀ i : Nat, i < xs.length → n ≠ int i) → (∀ x ∈ xs, IsValue x) →
    ∃ w, EvaluatesTo env [] (call S.nth [f, rlist f nil xs, n]) w ∧ ¬ IsValue w
  | [], n, hnv, _, _ => by
    obtain ⟨_, _, _, _, _, hp⟩ := D.nth
    exact ⟨_, ev_nth_nil D hf hn hna hnv, call_not_value hp.1⟩
  | x :: xs, n, hnv, ho, hx => by
    have hv := (value_rlist hf hn xs).mpr fun y hy => hx y (by simp [hy])
    obtain ⟨_, _, _, _, _, hp⟩ := D.nth
    have hn0 : n ≠ int 0 := ho 0 (by simp)
    by_cases hz : ∃ z, n = int z
    · obtain ⟨z, rfl⟩ := hz
      obtain ⟨w, h5, h6⟩ := ev_nth_out xs (int (z + -1)) (int_value _) (by
        intro i hi e
        simp only [int, Term.lit.injEq, Lit.num.injEq] at e
        refine ho (i + 1) (by simpa using hi) ?_
        simp only [int, Term.lit.injEq, Lit.num.injEq]
        omega) fun y hy => hx y (by simp [hy])
      refine ⟨w, ev_nth_succ D hf (hx x (by simp)) hv (int_value _) hn0 fun ctx F Y N h1 h2 h3 => ?_, h6⟩
      exact (ev_call hp [(F, f), (Y, rlist f nil xs), (.node EVAL_ADD [N, int (-1)], int (z + -1))] (by
        simp only [List.mem_cons, List.not_mem_nil, or_false, forall_eq_or_imp, forall_eq]
        exact ⟨h1, h2, ev_add h3 (value_eval env ctx _ (int_value (-1)))⟩) (by
        simp only [List.mem_cons, List.not_mem_nil, or_false, forall_eq_or_imp, forall_eq]; exact ⟨hf, hv, int_value _⟩) _).mpr h5
    · refine ⟨call S.nth [f, rlist f nil xs, .node EVAL_ADD [n, int (-1)]], ?_, call_not_value hp.1⟩
      refine ev_nth_succ D hf (hx x (by simp)) hv hnv hn0 fun ctx F Y N h1 h2 h3 => ?_
      have h4 : EvaluatesTo env ctx (.node EVAL_ADD [N, int (-1)]) (.node EVAL_ADD [n, int (-1)]) := by
        refine (C31_operator env ctx EVAL_ADD [(N, n), (int (-1), int (-1))] rfl (by simp) (by simp) (by
          simpa using ⟨h3, value_eval env ctx _ (int_value (-1))⟩) _).mpr (.inr ⟨?_, rfl⟩)
        cases n with
        | lit l =>
          refine litop_result env EVAL_ADD [l, .num (-1)] none (fun _ => rfl) (by simp) (by simp) rfl ?_
          cases l with
          | num z => exact absurd ⟨z, rfl⟩ hz
          | _ => rfl
        | sym k i => exact nonlit_result env EVAL_ADD _ (fun _ => rfl) (by simp) (by simp) rfl rfl
        | node k cs => exact nonlit_result env EVAL_ADD _ (fun _ => rfl) (by simp) (by simp) rfl rfl
      have hr : ProgResult env [S.nth, f, rlist f nil xs, .node EVAL_ADD [n, int (-1)]] none :=
        C30_not_run env S.nth _ (.node EVAL_ADD [n, int (-1)]) (by simp) (not_value_node _ _ rfl (by simp))
      rw [evaluatesTo_iff]
      exact (eval_prog OpResult.det ProgResult.det hp.1 (ev_list [(F, f), (Y, rlist f nil xs), (.node EVAL_ADD [N, int (-1)], .node EVAL_ADD [n, int (-1)])] (by
        simp only [List.mem_cons, List.not_mem_nil, or_false, forall_eq_or_imp, forall_eq]; exact ⟨h1, h2, h4⟩)) hr _).mpr rfl

end
end

section
variable {env : Env} {S : ListSyms}

theorem mult_erase_mem {x : Term} (y : Term) : ∀ {zs : List Term}, x ∈ zs → mult y zs = mult y (eraseFirst x zs) + if x = y then 1 else 0
  | [], h => by simp at h
  | z :: zs, h => by
    rw [eraseFirst]
    by_cases hz : z = x
    · subst hz; simp only [if_true, mult]; omega
    · have hm : x ∈ zs := by
        rcases List.mem_cons.mp h with e | e
        · exact absurd e.symm hz
        · exact e
      simp only [hz, if_false, mult, mult_erase_mem y hm]
      omega

/-- one step of the inclusion test -/
theorem incl_cons (x : Term) (xs zs : List Term) : (∀ y, mult y (x :: xs) ≤ mult y zs) ↔ x ∈ zs ∧ ∀ y, mult y xs ≤ mult y (eraseFirst x zs) := by
  constructor
  · intro h
    have hm : x ∈ zs := by
      have := h x
      simp only [mult, if_true] at this
      exact (mult_pos_iff x zs).mp (by omega)
    refine ⟨hm, fun y => ?_⟩
    have h1 := h y
    have h2 := mult_erase_mem y hm
    simp only [mult] at h1
    omega
  · rintro ⟨hm, h⟩ y
    have h1 := h y
    have h2 := mult_erase_mem y hm
    simp only [mult]
    omega

theorem ev_getElements (D : ListDefs env S) {f nil ct : Term} (hf : IsValue f) (hn : IsValue nil) (hna : NotApp f nil) :
    ∀ xs : List Term, (∀ x ∈ xs, IsValue x) → ElementList env S ct xs →
      EvaluatesTo env [] (call S.getElements [f, nil, rlist f nil xs]) (rlist S.cons S.nilList xs)
  | [], _, K => ev_getElements_nil D hf hn hna K.op.nilValue
  | x :: xs, hx, K => by
    have hx' : ∀ y ∈ xs, IsValue y := fun y hy => hx y (by simp [hy])
    have hv := (value_rlist hf hn xs).mpr hx'
    have hxv := hx x (by simp)
    have hcv := (value_rlist K.op.value K.op.nilValue xs).mpr hx'
    obtain ⟨_, _, _, _, _, hp⟩ := D.getElements
    refine ev_getElements_cons D hf hn hxv hv fun ctx F X Y N h1 h2 h3 h4 => ?_
    have ih := (ev_call hp [(F, f), (N, nil), (Y, rlist f nil xs)] (by
      simp only [List.mem_cons, List.not_mem_nil, or_false, forall_eq_or_imp, forall_eq]; exact ⟨h1, h4, h3⟩) (by
      simp only [List.mem_cons, List.not_mem_nil, or_false, forall_eq_or_imp, forall_eq]; exact ⟨hf, hn, hv⟩) _).mpr
      (ev_getElements D hf hn hna xs hx' ⟨K.op, fun y hy => K.nilFor y (by simp [hy]), K.nilOn.mono fun y hy => by simp [hy]⟩)
    refine (C31_operator env ctx EVAL_CONS [(S.cons, S.cons), (X, x), (call S.getElements [F, N, Y], rlist S.cons S.nilList xs)] rfl (by simp) (by simp) (by
      simp only [List.mem_cons, List.not_mem_nil, or_false, forall_eq_or_imp, forall_eq]
      exact ⟨value_eval _ _ _ K.op.value, h2, ih⟩) _).mpr (.inl ?_)
    obtain ⟨a, hd, ha⟩ := K.op.declared
    exact list_value rfl (by simp) (.plain K.op.plain) K.op.notLit hd ha (K.nilFor x (by simp)) (by
      simp only [List.map_cons, List.map_nil, List.mem_cons, List.not_mem_nil, or_false, forall_eq_or_imp, forall_eq]
      exact ⟨value_closed K.op.value, value_closed hxv, value_closed hcv⟩) (C15_cons K.op.nilNotApp S.cons x xs)

theorem ev_getElementsDef (D : ListDefs env S) {f nil ct : Term} (hf : IsValue f) (hn : IsValue nil) (hna : NotApp f nil) {ctx : Ctx} {F A : Term}
    {xs : List Term} (h1 : EvaluatesTo env ctx F f) (h2 : EvaluatesTo env ctx A (rlist f nil xs)) (hx : ∀ x ∈ xs, IsValue x)
    (hnd : EvaluatesTo env [] (nilDef S f (rlist f nil xs)) nil) (K : ElementList env S ct xs) :
    EvaluatesTo env ctx (getElementsDef S F A) (rlist S.cons S.nilList xs) := by
  have hv := (value_rlist hf hn xs).mpr hx
  obtain ⟨_, _, _, _, _, hp⟩ := D.getElements
  refine (ev_guarded (ev_isListDef_true D hf hn hna h1 h2 hx hnd) ((value_rlist K.op.value K.op.nilValue xs).mpr hx)).mpr ⟨rfl, ?_⟩
  exact (ev_call hp [(F, f), (nilDef S F A, nil), (A, rlist f nil xs)] (by
    simp only [List.mem_cons, List.not_mem_nil, or_false, forall_eq_or_imp, forall_eq]
    exact ⟨h1, ev_nilDef D h1 h2 hf hv hnd, h2⟩) (by
    simp only [List.mem_cons, List.not_mem_nil, or_false, forall_eq_or_imp, forall_eq]; exact ⟨hf, hn, hv⟩) _).mpr
    (ev_getElements D hf hn hna xs hx K)

theorem ev_minclude (D : ListDefs env S) {ct : Term} (K : NilListOp env S.cons ct S.nilList) : ∀ (xs zs : List Term),
    (∀ x ∈ xs, IsValue x) → (∀ x ∈ zs, IsValue x) → NilOn env S S.cons S.nilList zs →
    ∃ b, EvaluatesTo env [] (call S.minclude [rlist S.cons S.nilList xs, rlist S.cons S.nilList zs]) (boolVal b) ∧
      (b = true ↔ ∀ y, mult y xs ≤ mult y zs)
  | [], zs, _, hz, _ => ⟨true, ev_minclude_nil D K.nilValue K.nilNotApp K.value ((value_rlist K.value K.nilValue zs).mpr hz), by simp [mult]⟩
  | x :: xs, zs, hx, hz, hN => by
    have hv := (value_rlist K.value K.nilValue xs).mpr fun y hy => hx y (by simp [hy])
    have hzv := (value_rlist K.value K.nilValue zs).mpr hz
    have hxv := hx x (by simp)
    have hzv' := (value_rlist K.value K.nilValue (eraseFirst x zs)).mpr fun y hy => hz y (eraseFirst_mem hy)
    obtain ⟨_, _, _, _, hp⟩ := D.minclude
    have hiff : rlist S.cons S.nilList (eraseFirst x zs) = rlist S.cons S.nilList zs ↔ x ∉ zs := by
      rw [C14_injective _ _ K.nilNotApp, eraseFirst_eq_iff]
    obtain ⟨b, h5, h6⟩ := ev_minclude D K xs (eraseFirst x zs) (fun y hy => hx y (by simp [hy])) (fun y hy => hz y (eraseFirst_mem hy))
      (hN.mono fun y hy => eraseFirst_mem hy)
    rw [incl_cons]
    have step : ∀ v, (∀ (ctx : Ctx) (X Y Z : Term), EvaluatesTo env ctx X x → EvaluatesTo env ctx Y (rlist S.cons S.nilList xs) →
        EvaluatesTo env ctx Z (rlist S.cons S.nilList zs) → EvaluatesTo env ctx (eraseDef S S.cons Z X) (rlist S.cons S.nilList (eraseFirst x zs)) →
        EvaluatesTo env ctx (if decide (rlist S.cons S.nilList (eraseFirst x zs) = rlist S.cons S.nilList zs) then boolVal false
          else call S.minclude [Y, eraseDef S S.cons Z X]) v) →
        EvaluatesTo env [] (call S.minclude [bin S.cons x (rlist S.cons S.nilList xs), rlist S.cons S.nilList zs]) v := by
      intro v h
      refine ev_minclude_cons D K.value hxv hv hzv fun ctx X Y Z h1 h2 h3 => ?_
      have he := ev_eraseDef D K.value K.nilValue K.nilNotApp (value_eval env ctx _ K.value) h3 h1 hz hxv (hN zs fun y hy => hy)
      exact (C32_lazy env ctx _ _ _ _ (ev_eqDef D he h3 hzv' hzv) _).mpr (h ctx X Y Z h1 h2 h3 he)
    by_cases hm : x ∈ zs
    · have hne : ¬ rlist S.cons S.nilList (eraseFirst x zs) = rlist S.cons S.nilList zs := fun e => hiff.mp e hm
      refine ⟨b, step _ fun ctx X Y Z h1 h2 h3 he => ?_, by rw [h6]; simp [hm]⟩
      simp only [hne, decide_false, Bool.false_eq_true, if_false]
      exact (ev_call hp [(Y, rlist S.cons S.nilList xs), (eraseDef S S.cons Z X, rlist S.cons S.nilList (eraseFirst x zs))] (by
        simpa using ⟨h2, he⟩) (by simpa using ⟨hv, hzv'⟩) _).mpr h5
    · refine ⟨false, step _ fun ctx X Y Z h1 h2 h3 he => ?_, by simp [hm]⟩
      simp only [hiff.mpr hm, decide_true, if_true]
      exact value_eval _ _ _ (bool_value _)

end
end Ethos.Props
