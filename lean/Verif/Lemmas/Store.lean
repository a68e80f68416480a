import Verif.Lemmas.Trie
import Verif.Spec.Store
/- The invariant of the term store and its preservation. -/
namespace Ethos.Store
open Ethos Kind

theorem lookup_mem {α β : Type} [DecidableEq α] {x : α} {b : β} : ∀ {m : List (α × β)}, m.lookup x = some b → (x, b) ∈ m
  | [], h => by simp at h
  | (a, c) :: r, h => by
    rw [lookupc] at h
    by_cases hx : x = a
    · subst hx; simp at h; simp [h]
    · rw [if_neg hx] at h; exact List.mem_cons_of_mem _ (lookup_mem h)

theorem mem_lookup {α β : Type} [DecidableEq α] {x : α} {b : β} : ∀ {m : List (α × β)}, (m.map Prod.fst).Nodup →
    (x, b) ∈ m → m.lookup x = some b
  | [], _, h => by simp at h
  | (a, c) :: r, hn, h => by
    rw [List.map_cons, List.nodup_cons] at hn
    rw [lookupc]
    rcases List.mem_cons.mp h with h' | h'
    · obtain ⟨rfl, rfl⟩ := Prod.mk.inj h'; simp
    · have : x ≠ a := by
        rintro rfl; exact hn.1 (List.mem_map.mpr ⟨_, h', rfl⟩)
      rw [if_neg this]; exact mem_lookup hn.2 h'

theorem lookup_none_iff {α β : Type} [DecidableEq α] {x : α} : ∀ {m : List (α × β)}, m.lookup x = none ↔ x ∉ m.map Prod.fst
  | [] => by simp
  | (a, c) :: r => by
    rw [lookupc, List.map_cons, List.mem_cons]
    by_cases hx : x = a
    · simp [hx]
    · simp [hx, lookup_none_iff (m := r)]

theorem live_iff {s : St} {p : Nat} : s.live p = true ↔ ∃ n, s.heap.lookup p = some n := by
  unfold St.live; rw [Option.isSome_iff_exists]

theorem live_key {s : St} {p : Nat} : s.live p = true ↔ p ∈ s.heap.map Prod.fst := by
  rw [St.live, Option.isSome_iff_ne_none, Ne, lookup_none_iff, Decidable.not_not]

theorem mem_eraseKey {α : Type} {e : Nat} {x : Nat × α} {m : List (Nat × α)} : x ∈ eraseKey e m ↔ x ∈ m ∧ x.1 ≠ e := by
  simp [eraseKey]

/-! ### Counting references -/

def childRefs (h : List (Nat × Node)) (p : Nat) : Nat := (h.map (fun x => x.2.children.count p)).sum
def valRefs {α : Type} (m : List (α × Nat)) (p : Nat) : Nat := (m.map Prod.snd).count p

def refs (s : St) (p : Nat) : Nat := s.ext p + childRefs s.heap p + valRefs s.att p + valRefs s.lits p

theorem childRefs_cons (a : Nat) (n : Node) (h : List (Nat × Node)) (p : Nat) :
    childRefs ((a, n) :: h) p = n.children.count p + childRefs h p := by simp [childRefs]

theorem childRefs_zero {h : List (Nat × Node)} {p : Nat} : childRefs h p = 0 → ∀ a n, (a, n) ∈ h → p ∉ n.children := by
  intro h0 a n hm hp
  unfold childRefs at h0
  rw [List.sum_eq_zero_iff_forall_eq_nat] at h0
  have := h0 _ (List.mem_map.mpr ⟨_, hm, rfl⟩)
  rw [List.count_eq_zero] at this
  exact this hp

theorem childRefs_erase (e : Nat) (p : Nat) : ∀ h : List (Nat × Node), childRefs (eraseKey e h) p ≤ childRefs h p
  | [] => by simp [eraseKey]
  | (a, n) :: r => by
    have ih := childRefs_erase e p r
    rw [childRefs_cons]
    unfold eraseKey at ih ⊢
    rw [List.filter_cons]
    split
    · rw [childRefs_cons]; omega
    · omega

theorem valRefs_split (e : Nat) (p : Nat) : ∀ m : List (Nat × Nat),
    valRefs (eraseKey e m) p + ((m.filter (fun x => decide (x.1 = e))).map Prod.snd).count p = valRefs m p
  | [] => by simp [eraseKey, valRefs]
  | (a, q) :: r => by
    have ih := valRefs_split e p r
    unfold eraseKey valRefs at ih ⊢
    simp only [ne_eq, decide_not] at ih ⊢
    by_cases ha : a = e
    · simp only [List.filter_cons, ha, decide_true, Bool.not_true, if_true, List.map_cons, List.count_cons, Bool.false_eq_true,
        if_false]
      omega
    · simp only [List.filter_cons, ha, decide_false, Bool.not_false, if_true, List.map_cons, List.count_cons, Bool.false_eq_true,
        if_false]
      omega

/-! ### The invariant -/

/-- children are older than their parents -/
def Ordered : List (Nat × Node) → Prop
  | [] => True
  | (_, n) :: r => (∀ c ∈ n.children, c ∈ r.map Prod.fst) ∧ Ordered r

/-- `todo` lists the terms with count zero that are about to be deleted, `pend` the references about to be given up -/
structure Inv (s : St) (todo pend : List Nat) : Prop where
  keys : (s.heap.map Prod.fst).Nodup
  ord : Ordered s.heap
  count : ∀ p, refs s p + pend.count p ≤ s.rc p
  closed : ∀ p, 0 < refs s p + pend.count p → s.live p = true
  pos : ∀ p, s.live p = true → p ∉ todo → 0 < s.rc p
  todoN : todo.Nodup
  todoZ : ∀ p ∈ todo, s.live p = true ∧ s.rc p = 0
  trieS : ∀ k cs p, (s.trie k).find cs = some p → s.heap.lookup p = some (.app k cs)
  kinds : ∀ p k cs, s.heap.lookup p = some (.app k cs) → symKind k = false ∧ isLiteral k = false
  symK : ∀ p k i, s.heap.lookup p = some (.sym k i) → symKind k = true ∧ i < s.symCounter
  symU : ∀ p q k k' i, s.heap.lookup p = some (.sym k i) → s.heap.lookup q = some (.sym k' i) → p = q
  litU : (s.lits.map Prod.fst).Nodup
  litE : ∀ l p, (l, p) ∈ s.lits ↔ s.heap.lookup p = some (.lit l)
  attK : ∀ p q, (p, q) ∈ s.att → s.live p = true
  hashK : ∀ p h, (p, h) ∈ s.hash → s.live p = true ∧ h ≤ s.hashCounter
  hashN : (s.hash.map Prod.fst).Nodup
  hashU : (s.hash.map Prod.snd).Nodup

theorem inv_init : Inv St.init [] [] := by
  constructor <;> simp [St.init, Ordered, refs, childRefs, valRefs, St.live, Trie.find_empty]

theorem Inv.perm {s : St} {L L' pend : List Nat} (h : Inv s L pend) (hp : L.Perm L') : Inv s L' pend :=
  { h with
    pos := fun p hl hn => h.pos p hl (fun hm => hn (hp.mem_iff.mp hm))
    todoN := hp.nodup_iff.mp h.todoN
    todoZ := fun p hm => h.todoZ p (hp.mem_iff.mpr hm) }

/-- giving up a pending reference -/
theorem Inv.dec {s : St} {L pend : List Nat} {q : Nat} (h : Inv s L (q :: pend)) :
    Inv { s with rc := upd s.rc q (s.rc q - 1) } (if s.rc q - 1 = 0 then q :: L else L) pend := by
  have hq := h.count q
  rw [List.count_cons_self] at hq
  have hlive : s.live q = true := h.closed q (by rw [List.count_cons_self]; omega)
  have hnL : q ∉ L := fun hm => by have := (h.todoZ q hm).2; omega
  refine {
    keys := h.keys, ord := h.ord, count := ?_, closed := ?_, pos := ?_, todoN := ?_, todoZ := ?_, trieS := h.trieS,
    kinds := h.kinds, symK := h.symK, symU := h.symU, litU := h.litU, litE := h.litE, attK := h.attK, hashK := h.hashK,
    hashN := h.hashN, hashU := h.hashU }
  · intro p
    have hc := h.count p
    show refs s p + _ ≤ upd s.rc q _ p
    unfold upd
    by_cases hp : p = q
    · subst hp; rw [if_pos rfl]; rw [List.count_cons_self] at hc; omega
    · rw [if_neg hp]; rw [List.count_cons_of_ne (Ne.symm hp)] at hc; exact hc
  · intro p hp
    refine h.closed p ?_
    have : pend.count p ≤ (q :: pend).count p := by rw [List.count_cons]; omega
    have hp : 0 < refs s p + pend.count p := hp
    omega
  · intro p hl hn
    show 0 < upd s.rc q _ p
    unfold upd
    by_cases hp : p = q
    · subst hp
      rw [if_pos rfl]
      by_cases h0 : s.rc p - 1 = 0
      · rw [if_pos h0] at hn; simp at hn
      · omega
    · rw [if_neg hp]
      refine h.pos p hl (fun hm => hn ?_)
      split
      · exact List.mem_cons_of_mem _ hm
      · exact hm
  · split
    · exact List.nodup_cons.mpr ⟨hnL, h.todoN⟩
    · exact h.todoN
  · intro p hm
    show s.live p = true ∧ upd s.rc q _ p = 0
    unfold upd
    by_cases hp : p = q
    · subst hp
      rw [if_pos rfl]
      refine ⟨hlive, ?_⟩
      by_cases h0 : s.rc p - 1 = 0
      · exact h0
      · rw [if_neg h0] at hm; exact absurd hm hnL
    · rw [if_neg hp]
      refine h.todoZ p ?_
      split at hm
      · exact (List.mem_cons.mp hm).resolve_left hp
      · exact hm

theorem Inv.decAll : ∀ (qs : List Nat) (s : St) (todo : List Nat) (e : Nat), Inv s (e :: todo) qs →
    ∃ rc todo', s.decAll todo qs = ({ s with rc := rc }, todo') ∧ Inv { s with rc := rc } (e :: todo') []
  | [], s, todo, e, h => ⟨s.rc, todo, rfl, h⟩
  | q :: qs, s, todo, e, h => by
    have h1 := h.dec
    have h2 : Inv { s with rc := upd s.rc q (s.rc q - 1) } (e :: (s.dec todo q).2) qs := by
      unfold St.dec
      by_cases h0 : s.rc q - 1 = 0
      · simp only [h0, if_true] at h1 ⊢
        exact h1.perm (List.Perm.swap _ _ _)
      · simp only [h0, if_false] at h1 ⊢
        exact h1
    obtain ⟨rc, todo', h3, h4⟩ := Inv.decAll qs _ _ e h2
    refine ⟨rc, todo', ?_, h4⟩
    have h5 : (s.dec todo q).1 = { s with rc := upd s.rc q (s.rc q - 1) } := by
      unfold St.dec; split <;> rfl
    simp only [St.decAll, h5]
    exact h3

theorem ordered_erase (e : Nat) : ∀ h : List (Nat × Node), Ordered h → childRefs h e = 0 → Ordered (eraseKey e h)
  | [], _, _ => by simp [eraseKey, Ordered]
  | (a, n) :: r, ho, h0 => by
    rw [childRefs_cons] at h0
    have ih := ordered_erase e r ho.2 (by omega)
    unfold eraseKey at ih ⊢
    rw [List.filter_cons]
    split
    · refine ⟨fun c hc => ?_, ih⟩
      obtain ⟨x, hx, hxc⟩ := List.mem_map.mp (ho.1 c hc)
      refine List.mem_map.mpr ⟨x, List.mem_filter.mpr ⟨hx, ?_⟩, hxc⟩
      have hne : c ≠ e := by
        rintro rfl
        have : n.children.count c = 0 := by omega
        rw [List.count_eq_zero] at this
        exact this hc
      simp [hxc, hne]
    · exact ih

theorem nodup_erase {α : Type} (e : Nat) {m : List (Nat × α)} (h : (m.map Prod.fst).Nodup) : ((eraseKey e m).map Prod.fst).Nodup :=
  List.Nodup.sublist (List.Sublist.map _ List.filter_sublist) h

/-- removing a term from the heap and the trie -/
theorem Inv.drop {s : St} {todo : List Nat} {e : Nat} {n : Node} {t : Trie} {d b : Bool} (h : Inv s (e :: todo) [])
    (hn : s.heap.lookup e = some n) (ha : ∀ p q, (p, q) ∈ s.att → p ≠ e) (hh : ∀ p q, (p, q) ∈ s.hash → p ≠ e)
    (ht : (s.trie n.kind).remove n.children = some (t, d)) :
    Inv { s with trie := upd s.trie n.kind t, heap := eraseKey e s.heap, dangling := b } todo [] := by
  have hz := h.todoZ e (List.mem_cons_self ..)
  have hr : refs s e = 0 := by have := h.count e; simp only [List.count_nil] at this; omega
  have hch : childRefs s.heap e = 0 := by unfold refs at hr; omega
  have hlk : ∀ p, p ≠ e → (eraseKey e s.heap).lookup p = s.heap.lookup p := by
    intro p hp; rw [lookup_eraseKey, if_neg hp]
  have hlk' : ∀ p m, (eraseKey e s.heap).lookup p = some m → p ≠ e ∧ s.heap.lookup p = some m := by
    intro p m hp
    rw [lookup_eraseKey] at hp
    by_cases hpe : p = e
    · rw [if_pos hpe] at hp; simp at hp
    · rw [if_neg hpe] at hp; exact ⟨hpe, hp⟩
  have hlive : ∀ p, p ≠ e → s.live p = true →
      ({ s with trie := upd s.trie n.kind t, heap := eraseKey e s.heap, dangling := b } : St).live p = true := by
    intro p hp hl
    unfold St.live at hl ⊢
    rw [hlk p hp]; exact hl
  have hlive' : ∀ p, ({ s with trie := upd s.trie n.kind t, heap := eraseKey e s.heap, dangling := b } : St).live p = true →
      p ≠ e ∧ s.live p = true := by
    intro p hl
    rw [live_iff] at hl
    obtain ⟨m, hm⟩ := hl
    obtain ⟨h1, h2⟩ := hlk' p m hm
    exact ⟨h1, live_iff.mpr ⟨m, h2⟩⟩
  have hrefs : ∀ p, refs { s with trie := upd s.trie n.kind t, heap := eraseKey e s.heap, dangling := b } p ≤ refs s p := by
    intro p
    have := childRefs_erase e p s.heap
    unfold refs
    simp only
    omega
  obtain ⟨t1, t2, _⟩ := Trie.remove_spec ht
  refine {
    keys := nodup_erase e h.keys, ord := ordered_erase e _ h.ord hch, count := ?_, closed := ?_, pos := ?_, todoN := ?_,
    todoZ := ?_, trieS := ?_, kinds := ?_, symK := ?_, symU := ?_, litU := h.litU, litE := ?_, attK := ?_, hashK := ?_,
    hashN := h.hashN, hashU := h.hashU }
  · intro p; exact Nat.le_trans (Nat.add_le_add_right (hrefs p) _) (h.count p)
  · intro p hp
    have h1 := hrefs p
    simp only [List.count_nil, Nat.add_zero] at hp
    refine hlive p ?_ (h.closed p (by simp only [List.count_nil]; omega))
    rintro rfl; omega
  · intro p hl hm
    obtain ⟨h1, h2⟩ := hlive' p hl
    exact h.pos p h2 (fun hx => hm ((List.mem_cons.mp hx).resolve_left h1))
  · exact (List.nodup_cons.mp h.todoN).2
  · intro p hm
    obtain ⟨h1, h2⟩ := h.todoZ p (List.mem_cons_of_mem _ hm)
    refine ⟨hlive p ?_ h1, h2⟩
    rintro rfl; exact (List.nodup_cons.mp h.todoN).1 hm
  · intro k cs p hf0
    have hf : (upd s.trie n.kind t k).find cs = some p := hf0
    clear hf0
    show (eraseKey e s.heap).lookup p = _
    have hold : (s.trie k).find cs = some p ∧ p ≠ e := by
      unfold upd at hf
      by_cases hk : k = n.kind
      · subst hk
        rw [if_pos rfl] at hf
        have h1 := t2 _ _ hf
        refine ⟨h1, ?_⟩
        rintro rfl
        have h2 := h.trieS _ _ _ h1
        rw [hn] at h2
        have h3 := Option.some.inj h2
        have : n.children = cs := by rw [h3]; rfl
        rw [this] at t1
        rw [t1] at hf; simp at hf
      · rw [if_neg hk] at hf
        refine ⟨hf, ?_⟩
        rintro rfl
        have h2 := h.trieS _ _ _ hf
        rw [hn] at h2
        have h3 := Option.some.inj h2
        exact hk (by rw [h3]; rfl)
    rw [hlk p hold.2]; exact h.trieS _ _ _ hold.1
  · intro p k cs hp; exact h.kinds p k cs (hlk' _ _ hp).2
  · intro p k i hp; exact h.symK p k i (hlk' _ _ hp).2
  · intro p q k k' i hp hq; exact h.symU p q k k' i (hlk' _ _ hp).2 (hlk' _ _ hq).2
  · intro l p
    constructor
    · intro hm
      have h1 := (h.litE l p).mp hm
      show (eraseKey e s.heap).lookup p = _
      rw [hlk p ?_]; exact h1
      rintro rfl
      have : 0 < valRefs s.lits p := List.count_pos_iff.mpr (List.mem_map.mpr ⟨_, hm, rfl⟩)
      unfold refs at hr; omega
    · intro hp; exact (h.litE l p).mpr (hlk' _ _ hp).2
  · intro p q hm; exact hlive p (ha p q hm) (h.attK p q hm)
  · intro p x hm; exact ⟨hlive p (hh p x hm) (h.hashK p x hm).1, (h.hashK p x hm).2⟩

/-- a deleted term is not a literal: the table of literals holds a reference -/
theorem Inv.not_lit {s : St} {todo : List Nat} {e : Nat} {l : Lit} (h : Inv s todo []) (he : s.rc e = 0) :
    s.heap.lookup e ≠ some (.lit l) := by
  intro hl
  have hm := (h.litE l e).mpr hl
  have : 0 < valRefs s.lits e := List.count_pos_iff.mpr (List.mem_map.mpr ⟨_, hm, rfl⟩)
  have := h.count e
  unfold refs at this
  simp only [List.count_nil] at this
  omega

/-- forgetting the expressions and the hash of the term to be deleted -/
theorem Inv.detach {s : St} {L : List Nat} {e : Nat} (h : Inv s L []) :
    Inv { s with hash := eraseKey e s.hash, att := eraseKey e s.att } L
      ((s.att.filter (fun x => decide (x.1 = e))).map Prod.snd) := by
  have hr : ∀ p, refs { s with hash := eraseKey e s.hash, att := eraseKey e s.att } p +
      ((s.att.filter (fun x => decide (x.1 = e))).map Prod.snd).count p = refs s p := by
    intro p
    have := valRefs_split e p s.att
    unfold refs
    simp only
    omega
  refine {
    keys := h.keys, ord := h.ord, count := ?_, closed := ?_, pos := h.pos, todoN := h.todoN, todoZ := h.todoZ,
    trieS := h.trieS, kinds := h.kinds, symK := h.symK, symU := h.symU, litU := h.litU, litE := h.litE, attK := ?_, hashK := ?_,
    hashN := nodup_erase e h.hashN, hashU := List.Nodup.sublist (List.Sublist.map _ List.filter_sublist) h.hashU }
  · intro p; rw [hr]; have := h.count p; simpa using this
  · intro p hp; rw [hr] at hp; exact h.closed p (by simpa using hp)
  · intro p q hm; exact h.attK p q (mem_eraseKey.mp hm).1
  · intro p x hm; exact h.hashK p x (mem_eraseKey.mp hm).1

/-- the shape of a deletion -/
theorem delete_eq {s : St} {todo : List Nat} {e : Nat} (h : Inv s (e :: todo) []) :
    ∃ n rc todo', s.heap.lookup e = some n ∧ (∀ l, n ≠ .lit l) ∧
      Inv { s with hash := eraseKey e s.hash, att := eraseKey e s.att, rc := rc } (e :: todo') [] ∧
      s.delete todo e = (match (s.trie n.kind).remove n.children with
        | none => none
        | some (t, d) => some ({ s with
            hash := eraseKey e s.hash, att := eraseKey e s.att, rc := rc
            trie := upd s.trie n.kind t, heap := eraseKey e s.heap, dangling := s.dangling || d }, todo')) := by
  have hz := h.todoZ e (List.mem_cons_self ..)
  obtain ⟨n, hn⟩ := live_iff.mp hz.1
  have hnl : ∀ l, n ≠ .lit l := by
    rintro l rfl
    exact h.not_lit hz.2 hn
  obtain ⟨rc, todo', h1, h2⟩ := Inv.decAll _ _ _ _ h.detach
  refine ⟨n, rc, todo', hn, hnl, h2, ?_⟩
  unfold St.delete
  rw [hn]
  cases n with
  | lit l => exact absurd rfl (hnl l)
  | app k cs => simp only [h1] <;> rfl
  | sym k i => simp only [h1] <;> rfl

theorem Inv.delete {s s' : St} {todo todo' : List Nat} {e : Nat} (h : Inv s (e :: todo) [])
    (hd : s.delete todo e = some (s', todo')) :
    Inv s' todo' [] ∧ s'.heap = eraseKey e s.heap ∧ s'.ext = s.ext ∧ s'.hash = eraseKey e s.hash ∧
      s'.hashCounter = s.hashCounter := by
  obtain ⟨n, rc, todo'', hn, _, h2, h3⟩ := delete_eq h
  rw [h3] at hd
  cases hr : (s.trie n.kind).remove n.children with
  | none => simp [hr] at hd
  | some r =>
    obtain ⟨t, d⟩ := r
    rw [hr] at hd
    simp only [Option.some.injEq, Prod.mk.injEq] at hd
    obtain ⟨rfl, rfl⟩ := hd
    refine ⟨?_, rfl, rfl, rfl, rfl⟩
    exact h2.drop hn (fun p q hm => (mem_eraseKey.mp hm).2) (fun p q hm => (mem_eraseKey.mp hm).2) hr

end Ethos.Store
