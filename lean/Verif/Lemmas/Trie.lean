import Verif.Model.Store
/- The trie of children as a map from lists to terms. -/
namespace Ethos.Store

theorem lookupc {α β : Type} [DecidableEq α] (x a : α) (b : β) (r : List (α × β)) :
    ((a, b) :: r).lookup x = if x = a then some b else r.lookup x := by
  rw [List.lookup_cons]
  by_cases h : x = a
  · subst h; simp
  · have : (x == a) = false := by simpa using h
    simp [this, h]

theorem lookup_setKey {α : Type} (e e' : Nat) (t : α) : ∀ m : List (Nat × α),
    (setKey e t m).lookup e' = if e' = e then some t else m.lookup e'
  | [] => by simp only [setKey, lookupc, List.lookup_nil]
  | (a, b) :: r => by
    have ih := lookup_setKey e e' t r
    unfold setKey
    by_cases ha : a = e
    · subst ha
      rw [if_pos rfl, lookupc, lookupc]
      by_cases h : e' = a <;> simp [h]
    · rw [if_neg ha, lookupc, lookupc, ih]
      by_cases h : e' = e
      · subst h; simp [Ne.symm ha]
      · simp [h]

theorem lookup_eraseKey {α : Type} (e e' : Nat) : ∀ m : List (Nat × α),
    (eraseKey e m).lookup e' = if e' = e then none else m.lookup e'
  | [] => by simp [eraseKey]
  | (a, b) :: r => by
    have ih := lookup_eraseKey e e' r
    unfold eraseKey at ih ⊢
    rw [List.filter_cons]
    by_cases ha : a = e
    · subst ha
      rw [if_neg (by simp), ih, lookupc]
      by_cases h : e' = a <;> simp [h]
    · rw [if_pos (by simpa using ha), lookupc, lookupc, ih]
      by_cases h : e' = e
      · subst h; simp [Ne.symm ha]
      · simp [h]

namespace Trie

@[simp] theorem kids_mk (d : Option Nat) (ks : List (Nat × Trie)) : (Trie.mk d ks).kids = ks := rfl
@[simp] theorem data_mk (d : Option Nat) (ks : List (Nat × Trie)) : (Trie.mk d ks).data = d := rfl

theorem find_nil (t : Trie) : t.find [] = t.data := by cases t; rfl
theorem find_cons (t : Trie) (e : Nat) (es : List Nat) : t.find (e :: es) = match t.kids.lookup e with
    | some t' => t'.find es
    | none => none := by cases t; rfl

theorem find_empty (es : List Nat) : Trie.empty.find es = none := by cases es <;> rfl

theorem find_insert : ∀ (t : Trie) (es es' : List Nat) (p : Nat),
    (t.insert es p).find es' = if es' = es then some p else t.find es'
  | t, [], es', p => by
    cases es' with
    | nil => simp [insert, find_nil]
    | cons e' es' => simp [insert, find_cons, kids_mk]
  | t, e :: es, es', p => by
    cases es' with
    | nil => simp [insert, find_nil]
    | cons e' es' =>
      simp only [insert, find_cons, kids_mk]
      rw [lookup_setKey]
      by_cases h : e' = e
      · subst h
        simp only [if_true, List.cons.injEq, true_and]
        rw [find_insert _ es es' p]
        cases hl : t.kids.lookup e' with
        | none => simp [find_empty]
        | some t' => simp
      · simp [h]

/-- erasing a subtrie never adds entries -/
theorem find_eraseAt_le : ∀ (t : Trie) (path : List Nat) (d : Nat) (es : List Nat) (p : Nat),
    (t.eraseAt path d).find es = some p → t.find es = some p
  | t, [], d, es, p, h => by simpa [eraseAt] using h
  | t, e :: path, 0, es, p, h => by
    cases es with
    | nil => simpa [eraseAt, find_nil] using h
    | cons e' es =>
      simp only [eraseAt, find_cons, kids_mk, lookup_eraseKey] at h ⊢
      by_cases he : e' = e <;> simp_all
  | t, e :: path, d + 1, es, p, h => by
    simp only [eraseAt] at h
    cases hl : t.kids.lookup e with
    | none => simpa [hl] using h
    | some t' =>
      simp only [hl] at h
      cases es with
      | nil => simpa [find_nil] using h
      | cons e' es =>
        simp only [find_cons, kids_mk, lookup_setKey] at h ⊢
        by_cases he : e' = e
        · subst he
          simp only [if_true] at h
          rw [hl]
          exact find_eraseAt_le t' path d es p h
        · simpa [he] using h

theorem find_clear : ∀ (t : Trie) (path es : List Nat),
    (t.clear path).find es = if es = path then none else t.find es
  | t, [], es => by
    cases es with
    | nil => simp [clear, find_nil]
    | cons e es => simp [clear, find_cons, kids_mk]
  | t, e :: path, es => by
    simp only [clear]
    cases hl : t.kids.lookup e with
    | none =>
      cases es with
      | nil => simp
      | cons e' es =>
        by_cases he : e' = e
        · subst he; simp [find_cons, hl]
        · simp [he]
    | some t' =>
      cases es with
      | nil => simp [find_nil]
      | cons e' es =>
        simp only [find_cons, kids_mk, lookup_setKey]
        by_cases he : e' = e
        · subst he
          simp [find_clear t' path es, hl]
        · simp [he]

/-- every node on the path has one child -/
def Single : Trie → List Nat → Prop
  | _, [] => True
  | t, e :: es => t.kids.length ≤ 1 ∧ ∃ t', t.kids.lookup e = some t' ∧ Single t' es

/-- the path exists -/
def Path : Trie → List Nat → Prop
  | _, [] => True
  | t, e :: es => ∃ t', t.kids.lookup e = some t' ∧ Path t' es

theorem path_of_find : ∀ (es : List Nat) (t : Trie) (p : Nat), t.find es = some p → Path t es
  | [], _, _, _ => trivial
  | e :: es, t, p, h => by
    rw [find_cons] at h
    cases hl : t.kids.lookup e with
    | none => simp [hl] at h
    | some t' => exact ⟨t', hl, path_of_find es t' p (by simpa [hl] using h)⟩

theorem walk_path : ∀ (es : List Nat) (t : Trie) (d : Nat) (etd : Option Nat), Path t es → ∃ r, t.walk es d etd = some r
  | [], _, _, etd, _ => ⟨etd, rfl⟩
  | e :: es, t, d, etd, h => by
    obtain ⟨t', hl, hp⟩ := h
    obtain ⟨r, hr⟩ := walk_path es t' (d+1) (if t.kids.length > 1 then none else some (etd.getD d)) hp
    exact ⟨r, by simp only [walk, hl]; exact hr⟩

theorem path_of_walk : ∀ (es : List Nat) (t : Trie) (d : Nat) (etd r : Option Nat), t.walk es d etd = some r → Path t es
  | [], _, _, _, _, _ => trivial
  | e :: es, t, d, etd, r, h => by
    simp only [walk] at h
    cases hl : t.kids.lookup e with
    | none => simp [hl] at h
    | some t' => simp only [hl] at h; exact ⟨t', hl, path_of_walk es t' _ _ _ h⟩

theorem walk_single : ∀ (path : List Nat) (t : Trie) (d : Nat) (etd : Option Nat), Single t path →
    t.walk path d etd = some (if path = [] then etd else some (etd.getD d))
  | [], _, _, _, _ => by simp [walk]
  | e :: es, t, d, etd, h => by
    obtain ⟨h1, t', hl, hs⟩ := h
    simp only [walk, hl]
    rw [if_neg (by omega), walk_single es t' (d+1) _ hs]
    by_cases he : es = [] <;> simp [he]

theorem walk_branch : ∀ (path : List Nat) (t : Trie) (d : Nat), Path t path → ¬ Single t path →
    (∀ etd etd', t.walk path d etd = t.walk path d etd') ∧ (∀ etd c, t.walk path d etd = some (some c) → d < c)
  | [], _, _, _, h => absurd trivial h
  | e :: es, t, d, hp, h => by
    obtain ⟨t', hl, hp'⟩ := hp
    by_cases hlen : t.kids.length > 1
    · constructor
      · intro etd etd'; simp only [walk, hl, if_pos hlen]
      · intro etd c hc
        simp only [walk, hl, if_pos hlen] at hc
        by_cases hs : Single t' es
        · rw [walk_single es t' (d+1) none hs] at hc
          by_cases he : es = [] <;> simp [he] at hc
          omega
        · have := (walk_branch es t' (d+1) hp' hs).2 _ _ hc
          omega
    · have hs : ¬ Single t' es := fun hs => h ⟨by omega, t', hl, hs⟩
      obtain ⟨h1, h2⟩ := walk_branch es t' (d+1) hp' hs
      constructor
      · intro etd etd'; simp only [walk, hl, if_neg hlen]; exact h1 _ _
      · intro etd c hc
        simp only [walk, hl, if_neg hlen] at hc
        have := h2 _ _ hc
        omega

/-- along a single path only prefixes and extensions of the path are stored -/
theorem find_single : ∀ (path : List Nat) (t : Trie) (es : List Nat), Single t path → ¬ path <+: es → ¬ es <+: path →
    t.find es = none
  | [], _, _, _, h, _ => absurd (List.nil_prefix) h
  | e :: path, t, [], _, _, h => absurd (List.nil_prefix) h
  | e :: path, t, e' :: es, hs, h1, h2 => by
    obtain ⟨hlen, t', hl, hs'⟩ := hs
    rw [find_cons]
    by_cases he : e' = e
    · subst he
      rw [hl]
      refine find_single path t' es hs' ?_ ?_
      · intro h; exact h1 (by simpa using h)
      · intro h; exact h2 (by simpa using h)
    · have : t.kids.lookup e' = none := by
        match hk : t.kids, hlen with
        | [], _ => rfl
        | [(a, b)], _ =>
          rw [hk] at hl
          by_cases ha : e = a
          · subst ha; rw [lookupc, if_neg he]; rfl
          · rw [lookupc, if_neg ha] at hl; simp at hl
        | _ :: _ :: _, h => simp at h
      rw [this]

theorem find_eraseAt : ∀ (path : List Nat) (t : Trie) (d c : Nat), t.walk path d none = some (some c) →
    (t.eraseAt path (c - d)).find path = none ∧
    ∀ es, ¬ path <+: es → ¬ es <+: path → (t.eraseAt path (c - d)).find es = t.find es
  | [], t, d, c, h => by simp [walk] at h
  | e :: path, t, d, c, h => by
    have hp := path_of_walk _ _ _ _ _ h
    by_cases hs : Single t (e :: path)
    · rw [walk_single _ _ _ _ hs] at h
      have hc : c = d := by simpa using h.symm
      subst hc
      rw [Nat.sub_self]
      constructor
      · simp [eraseAt, find_cons, kids_mk, lookup_eraseKey]
      · intro es h1 h2
        rw [find_single _ _ _ hs h1 h2]
        cases hf : (t.eraseAt (e :: path) 0).find es with
        | none => rfl
        | some p => rw [find_single _ _ _ hs h1 h2 |>.symm.trans (find_eraseAt_le _ _ _ _ _ hf)]
    · obtain ⟨hb1, hb2⟩ := walk_branch _ _ d hp hs
      have hlt := hb2 _ _ h
      obtain ⟨t', hl, hp'⟩ := hp
      have hw : t'.walk path (d+1) none = some (some c) := by
        simp only [walk, hl] at h
        by_cases hlen : t.kids.length > 1
        · rw [if_pos hlen] at h; exact h
        · rw [if_neg hlen] at h
          have hs' : ¬ Single t' path := fun hs' => hs ⟨by omega, t', hl, hs'⟩
          rw [(walk_branch _ _ (d+1) hp' hs').1 none (some (none.getD d))]; exact h
      obtain ⟨i1, i2⟩ := find_eraseAt path t' (d+1) c hw
      have hcd : c - d = (c - (d+1)) + 1 := by omega
      rw [hcd]
      simp only [eraseAt, hl]
      constructor
      · simp [find_cons, kids_mk, lookup_setKey, i1]
      · intro es h1 h2
        cases es with
        | nil => exact absurd (List.nil_prefix) h2
        | cons e' es =>
          simp only [find_cons, kids_mk, lookup_setKey]
          by_cases he : e' = e
          · subst he
            simp only [if_true, hl]
            exact i2 es (fun h => h1 (by simpa using h)) (fun h => h2 (by simpa using h))
          · simp [he]

theorem remove_of_find {t : Trie} {path : List Nat} {p : Nat} (h : t.find path = some p) : ∃ r, t.remove path = some r := by
  obtain ⟨r, hr⟩ := walk_path path t 0 none (path_of_find _ _ _ h)
  cases r with
  | none => exact ⟨(t.clear path, false), by simp [remove, hr]⟩
  | some d => exact ⟨(t.eraseAt path d, true), by simp [remove, hr]⟩

theorem remove_spec {t t' : Trie} {path : List Nat} {b : Bool} (h : t.remove path = some (t', b)) :
    t'.find path = none ∧ (∀ es p, t'.find es = some p → t.find es = some p) ∧
    (∀ es, ¬ path <+: es → ¬ es <+: path → t'.find es = t.find es) := by
  unfold remove at h
  cases hw : t.walk path 0 none with
  | none => simp [hw] at h
  | some r =>
    cases r with
    | none =>
      simp only [hw, Option.some.injEq, Prod.mk.injEq] at h
      obtain ⟨rfl, rfl⟩ := h
      refine ⟨by simp [find_clear], ?_, ?_⟩
      · intro es p hf
        rw [find_clear] at hf
        by_cases he : es = path <;> simp_all
      · intro es h1 h2
        rw [find_clear, if_neg]
        rintro rfl; exact h1 (List.prefix_rfl)
    | some d =>
      simp only [hw, Option.some.injEq, Prod.mk.injEq] at h
      obtain ⟨rfl, rfl⟩ := h
      have := find_eraseAt path t 0 d hw
      rw [Nat.sub_zero] at this
      exact ⟨this.1, fun es p => find_eraseAt_le _ _ _ _ _, this.2⟩

/-- removing the empty path (symbols and literals have no children) -/
theorem remove_nil (t : Trie) : t.remove [] = some (t.clear [], false) := by simp [remove, walk]

end Trie
end Ethos.Store
