import Verif.Lemmas.ListOps
/-
Helper lemmas for C16: multiplicity maps.
-/
namespace Ethos
open Kind Spec Term

theorem u32_small (n : Nat) (h : n < 2^32) : u32 (n : Int) = n := by
  unfold u32; omega

theorem mult_append (x : Term) (a b : List Term) : mult x (a ++ b) = mult x a + mult x b := by
  induction a with
  | nil => simp [mult]
  | cons y a ih => simp only [List.cons_append, mult, ih]; omega

theorem mult_le (x : Term) (l : List Term) : mult x l ≤ l.length := by
  induction l with
  | nil => simp [mult]
  | cons y l ih => simp only [mult, List.length_cons]; split <;> omega

theorem mult_pos_iff (x : Term) (l : List Term) : 0 < mult x l ↔ x ∈ l := by
  induction l with
  | nil => simp [mult]
  | cons y l ih =>
    simp only [mult, List.mem_cons]
    split
    · rename_i h; simp [h.symm]; omega
    · rename_i h
      rw [Nat.zero_add, ih]
      constructor
      · exact Or.inr
      · rintro (rfl | h')
        · exact absurd rfl h
        · exact h'

theorem lookup_bump (m : List (Term × Nat)) (e x : Term) :
    (bump m e).lookup x = if x = e then some (u32 ((countOf m e : Int) + 1)) else m.lookup x := by
  induction m with
  | nil =>
    simp only [bump, List.lookup_cons, List.lookup_nil, countOf]
    by_cases h : x = e
    · subst h; simp [u32]
    · have : (x == e) = false := by simpa using h
      simp [h, this]
  | cons p m ih =>
    obtain ⟨k, n⟩ := p
    simp only [bump]
    by_cases hk : k = e
    · subst hk
      simp only [if_true, List.lookup_cons, countOf]
      by_cases h : x = k
      · subst h; simp
      · have : (x == k) = false := by simpa using h
        simp [h, this]
    · simp only [hk, if_false, List.lookup_cons]
      have hc : countOf ((k, n) :: m) e = countOf m e := by
        have : (e == k) = false := by simpa using fun h : e = k => hk h.symm
        simp [countOf, List.lookup_cons, this]
      rw [hc]
      by_cases h : x = k
      · subst h
        simp [hk]
      · have : (x == k) = false := by simpa using h
        simp only [this, ih]

theorem keys_bump (m : List (Term × Nat)) (e : Term) :
    (bump m e).map Prod.fst = if e ∈ m.map Prod.fst then m.map Prod.fst else m.map Prod.fst ++ [e] := by
  induction m with
  | nil => simp [bump]
  | cons p m ih =>
    obtain ⟨k, n⟩ := p
    simp only [bump]
    by_cases hk : k = e
    · subst hk; simp
    · have hk' : e ≠ k := fun h => hk h.symm
      simp only [hk, if_false, List.map_cons, ih, List.mem_cons, hk', false_or]
      split <;> simp

/-- `m` is the multiplicity map of `l` -/
structure IsCount (m : List (Term × Nat)) (l : List Term) : Prop where
  nodup : (m.map Prod.fst).Nodup
  look : ∀ x, m.lookup x = if mult x l = 0 then none else some (mult x l)

theorem lookup_none_iff (m : List (Term × Nat)) (x : Term) : m.lookup x = none ↔ x ∉ m.map Prod.fst := by
  induction m with
  | nil => simp
  | cons p m ih =>
    obtain ⟨k, n⟩ := p
    simp only [List.lookup_cons, List.map_cons, List.mem_cons]
    by_cases h : x = k
    · subst h; simp
    · have : (x == k) = false := by simpa using h
      simp [this, h, ih]

theorem mem_iff_lookup (m : List (Term × Nat)) (hn : (m.map Prod.fst).Nodup) (x : Term) (n : Nat) :
    (x, n) ∈ m ↔ m.lookup x = some n := by
  induction m with
  | nil => simp
  | cons p m ih =>
    obtain ⟨k, c⟩ := p
    simp only [List.map_cons, List.nodup_cons] at hn
    simp only [List.lookup_cons, List.mem_cons, Prod.mk.injEq]
    by_cases h : x = k
    · subst h
      simp only [beq_self_eq_true, true_and, Option.some.injEq]
      constructor
      · rintro (h | h)
        · exact h.symm
        · exact absurd (List.mem_map.mpr ⟨(x, n), h, rfl⟩) hn.1
      · exact fun h => Or.inl h.symm
    · have : (x == k) = false := by simpa using h
      simp [this, h, ih hn.2]

theorem IsCount.count {m : List (Term × Nat)} {l : List Term} (h : IsCount m l) (x : Term) : countOf m x = mult x l := by
  unfold countOf
  rw [h.look]
  split
  · rename_i h0; simp [h0]
  · simp

theorem IsCount.keys {m : List (Term × Nat)} {l : List Term} (h : IsCount m l) (x : Term) :
    x ∈ m.map Prod.fst ↔ x ∈ l := by
  rw [← mult_pos_iff x l]
  have h1 := lookup_none_iff m x
  rw [h.look] at h1
  constructor
  · intro hx
    apply Nat.pos_of_ne_zero
    intro h0
    rw [if_pos h0] at h1
    exact (h1.mp rfl) hx
  · intro hp
    rw [if_neg (by omega)] at h1
    exact Classical.byContradiction fun hx => by simpa using h1.mpr hx

theorem IsCount.isSome {m : List (Term × Nat)} {l : List Term} (h : IsCount m l) (x : Term) :
    (m.lookup x).isSome = decide (x ∈ l) := by
  rw [h.look]
  by_cases hx : x ∈ l
  · have := (mult_pos_iff x l).mpr hx
    rw [if_neg (by omega)]; simp [hx]
  · have : mult x l = 0 := by
      have := mt (mult_pos_iff x l).mp hx; omega
    rw [if_pos this]; simp [hx]

theorem counts_spec_aux : ∀ (l done : List Term) (m : List (Term × Nat)), IsCount m done → (done ++ l).length < 2^32 →
    IsCount (l.foldl bump m) (done ++ l)
  | [], done, m, h, _ => by simpa using h
  | x :: l, done, m, h, hl => by
    have hstep : IsCount (bump m x) (done ++ [x]) := by
      constructor
      · rw [keys_bump]
        split
        · exact h.nodup
        · rename_i hx
          rw [List.nodup_append]
          refine ⟨h.nodup, by simp, ?_⟩
          intro a ha b hb
          simp at hb
          subst hb
          rintro rfl
          exact hx ha
      · intro y
        rw [lookup_bump, mult_append, h.look, h.count]
        have hb : mult x done ≤ done.length := mult_le x done
        have hd : done.length + 1 < 2^32 := by simp at hl; omega
        by_cases hy : y = x
        · subst hy
          simp only [if_true, mult]
          have : u32 ((mult y done : Int) + 1) = mult y done + 1 := by
            have := u32_small (mult y done + 1) (by omega)
            simpa using this
          rw [this]
          simp
        · have hxy : x ≠ y := fun e => hy e.symm
          simp [hy, hxy, mult]
    have := counts_spec_aux l (done ++ [x]) (bump m x) hstep (by simpa using hl)
    simpa using this

theorem counts_spec (l : List Term) (h : l.length < 2^32) : IsCount (counts l) l := by
  have := counts_spec_aux l [] [] ⟨by simp, by simp [mult]⟩ (by simpa using h)
  simpa [counts] using this

theorem mult_eraseFirst (x y : Term) (l : List Term) :
    mult x (eraseFirst y l) = if x = y then mult x l - 1 else mult x l := by
  induction l with
  | nil => simp [eraseFirst, mult]
  | cons z l ih =>
    simp only [eraseFirst]
    by_cases hz : z = y
    · subst hz
      simp only [if_true, mult]
      by_cases hx : x = z
      · subst hx; simp
      · have : z ≠ x := fun e => hx e.symm
        simp [hx, this]
    · simp only [hz, if_false, mult, ih]
      by_cases hx : x = y
      · subst hx; simp [hz]
      · simp [hx]

theorem lookup_decr (m : List (Term × Nat)) (hn : (m.map Prod.fst).Nodup) (e x : Term) (n : Nat) (he : m.lookup e = some n) :
    (decr m e).lookup x = if x = e then (if u32 ((n : Int) - 1) = 0 then none else some (u32 ((n : Int) - 1))) else m.lookup x := by
  induction m with
  | nil => simp at he
  | cons p m ih =>
    obtain ⟨k, c⟩ := p
    simp only [List.map_cons, List.nodup_cons] at hn
    simp only [decr]
    by_cases hk : k = e
    · subst hk
      simp only [List.lookup_cons, beq_self_eq_true, Option.some.injEq] at he
      subst he
      simp only [if_true]
      by_cases hx : x = k
      · subst hx
        simp only [if_true]
        split
        · rw [(lookup_none_iff m x).mpr hn.1]
        · simp
      · have : (x == k) = false := by simpa using hx
        simp only [hx, if_false]
        split <;> simp [List.lookup_cons, this]
    · have hek : (e == k) = false := by simpa using fun h : e = k => hk h.symm
      simp only [List.lookup_cons, hek] at he
      simp only [hk, if_false, List.lookup_cons, ih hn.2 he]
      by_cases hx : x = k
      · subst hx; simp [hk]
      · have : (x == k) = false := by simpa using hx
        simp [this]

theorem keys_decr (m : List (Term × Nat)) (e : Term) : List.Sublist ((decr m e).map Prod.fst) (m.map Prod.fst) := by
  induction m with
  | nil => simp [decr]
  | cons p m ih =>
    obtain ⟨k, c⟩ := p
    simp only [decr]
    split
    · split
      · simp
      · simp
    · simp only [List.map_cons]; exact ih.cons_cons k

theorem IsCount.decr {m : List (Term × Nat)} {l : List Term} (h : IsCount m l) (hl : l.length < 2^32) (x : Term) (hx : x ∈ l) :
    IsCount (Ethos.decr m x) (eraseFirst x l) := by
  have hp := (mult_pos_iff x l).mpr hx
  have hle := mult_le x l
  have hlook := h.look x
  rw [if_neg (by omega)] at hlook
  constructor
  · exact List.Sublist.nodup (keys_decr m x) h.nodup
  · intro y
    rw [lookup_decr m h.nodup x y _ hlook, mult_eraseFirst]
    by_cases hy : y = x
    · subst hy
      simp only [if_true]
      have : u32 ((mult y l : Int) - 1) = mult y l - 1 := by
        have h1 := u32_small (mult y l - 1) (by omega)
        rw [← h1]; congr 1; omega
      rw [this]
    · simp [hy, h.look y]

theorem eraseFirst_length (x : Term) (l : List Term) : (eraseFirst x l).length ≤ l.length := by
  induction l with
  | nil => simp [eraseFirst]
  | cons y l ih => simp only [eraseFirst]; split <;> simp; exact ih

def diffSpec (isDiff : Bool) (xs ys : List Term) : List Term := if isDiff then mdiff xs ys else minter xs ys

theorem diffLoop_spec (isDiff : Bool) : ∀ (hs : List Term) (P : List Term) (c2 : List (Term × Nat)) (ys result : List Term) (ci cs : Nat),
    Share P result ci cs → IsCount c2 ys → ys.length < 2^32 →
    ∃ r ci' cs', diffLoop isDiff hs P.length c2 result ci cs = (r, ci', cs') ∧ Share (P ++ hs) r ci' cs' ∧
      r = result ++ diffSpec isDiff hs ys
  | [], P, c2, ys, result, ci, cs, h, _, _ => ⟨result, ci, cs, rfl, by simpa using h, by cases isDiff <;> simp [diffSpec, mdiff, minter]⟩
  | y :: hs, P, c2, ys, result, ci, cs, h, hc, hl => by
    rw [diffLoop]
    simp only [hc.isSome]
    by_cases hy : y ∈ ys
    · have hc' := hc.decr hl y hy
      have hl' : (eraseFirst y ys).length < 2^32 := Nat.lt_of_le_of_lt (eraseFirst_length y ys) hl
      simp only [hy, decide_true, if_true]
      cases isDiff
      · obtain ⟨r, ci', cs', h1, h2, h3⟩ := diffLoop_spec false hs (P ++ [y]) _ _ (result ++ [y]) ci cs (h.keep y) hc' hl'
        refine ⟨r, ci', cs', ?_, by simpa using h2, ?_⟩
        · simpa using h1
        · rw [h3]; simp [diffSpec, minter, hy]
      · obtain ⟨r, ci', cs', h1, h2, h3⟩ := diffLoop_spec true hs (P ++ [y]) _ _ result (P.length + 1) result.length (Share.drop y) hc' hl'
        refine ⟨r, ci', cs', ?_, by simpa using h2, ?_⟩
        · simpa using h1
        · rw [h3]; simp [diffSpec, mdiff, hy]
    · simp only [hy, decide_false, Bool.false_eq_true, if_false]
      cases isDiff
      · obtain ⟨r, ci', cs', h1, h2, h3⟩ := diffLoop_spec false hs (P ++ [y]) c2 ys result (P.length + 1) result.length (Share.drop y) hc hl
        refine ⟨r, ci', cs', ?_, by simpa using h2, ?_⟩
        · simpa using h1
        · rw [h3]; simp [diffSpec, minter, hy]
      · obtain ⟨r, ci', cs', h1, h2, h3⟩ := diffLoop_spec true hs (P ++ [y]) c2 ys (result ++ [y]) ci cs (h.keep y) hc hl
        refine ⟨r, ci', cs', ?_, by simpa using h2, ?_⟩
        · simpa using h1
        · rw [h3]; simp [diffSpec, mdiff, hy]

theorem mdiff_self (xs : List Term) : mdiff xs xs = [] := by
  induction xs with
  | nil => rfl
  | cons x xs ih => simp [mdiff, eraseFirst, ih]

theorem minter_self (xs : List Term) : minter xs xs = xs := by
  induction xs with
  | nil => rfl
  | cons x xs ih => simp [minter, eraseFirst, ih]

/-- the comparison of multiplicity maps -/
theorem mpred_incl {m1 m2 : List (Term × Nat)} {xs ys : List Term} (h1 : IsCount m1 xs) (h2 : IsCount m2 ys) :
    m1.any (fun e => decide (countOf m2 e.1 < e.2)) = false ↔ ∀ x, mult x xs ≤ mult x ys := by
  rw [List.any_eq_false]
  constructor
  · intro h x
    by_cases hx : mult x xs = 0
    · omega
    · have hm : (x, mult x xs) ∈ m1 := (mem_iff_lookup m1 h1.nodup x _).mpr (by rw [h1.look, if_neg hx])
      have := h _ hm
      simp only [decide_eq_true_eq, h2.count] at this
      omega
  · intro h e he
    obtain ⟨x, n⟩ := e
    have hl := (mem_iff_lookup m1 h1.nodup x n).mp he
    rw [h1.look] at hl
    split at hl
    · cases hl
    · cases hl
      have := h x
      simp only [decide_eq_true_eq, h2.count]
      omega

theorem mpred_eq {m1 m2 : List (Term × Nat)} {xs ys : List Term} (h1 : IsCount m1 xs) (h2 : IsCount m2 ys) :
    (m1.length = m2.length ∧ m1.any (fun e => decide (countOf m2 e.1 ≠ e.2)) = false) ↔
      ∀ x, mult x xs = mult x ys := by
  constructor
  · rintro ⟨hlen, hany⟩
    rw [List.any_eq_false] at hany
    have hpos : ∀ x, mult x xs ≠ 0 → mult x ys = mult x xs := by
      intro x hx
      have hm : (x, mult x xs) ∈ m1 := (mem_iff_lookup m1 h1.nodup x _).mpr (by rw [h1.look, if_neg hx])
      have := hany _ hm
      simpa [h2.count] using this
    intro x
    by_cases hx : mult x xs = 0
    · by_cases hy : mult x ys = 0
      · omega
      · exfalso
        have hk1 : x ∉ m1.map Prod.fst := by
          rw [h1.keys, ← mult_pos_iff]; omega
        have hk2 : x ∈ m2.map Prod.fst := by
          rw [h2.keys, ← mult_pos_iff]; omega
        have hnd : (x :: m1.map Prod.fst).Nodup := by
          rw [List.nodup_cons]; exact ⟨hk1, h1.nodup⟩
        have hsub : (x :: m1.map Prod.fst) ⊆ m2.map Prod.fst := by
          intro y hy'
          rcases List.mem_cons.mp hy' with rfl | hy'
          · exact hk2
          · rw [h1.keys, ← mult_pos_iff] at hy'
            rw [h2.keys, ← mult_pos_iff, hpos y (by omega)]
            exact hy'
        have := List.Nodup.length_le_of_subset hnd hsub
        simp at this
        omega
    · exact (hpos x hx).symm
  · intro h
    constructor
    · have hk : ∀ x, x ∈ m1.map Prod.fst ↔ x ∈ m2.map Prod.fst := by
        intro x
        rw [h1.keys, h2.keys, ← mult_pos_iff, ← mult_pos_iff, h]
      have hp := (List.perm_ext_iff_of_nodup h1.nodup h2.nodup).mpr hk
      have := hp.length_eq
      simpa using this
    · rw [List.any_eq_false]
      intro e he
      obtain ⟨x, n⟩ := e
      have hl := (mem_iff_lookup m1 h1.nodup x n).mp he
      rw [h1.look] at hl
      split at hl
      · cases hl
      · cases hl
        simp [h2.count, h]

end Ethos
