import Verif.Lemmas.Store
/- Preservation of the store invariant by the client's operations. -/
namespace Ethos.Store
open Ethos Kind

/-- terms only disappear; what remains keeps its hash -/
structure Shrinks (s s' : St) : Prop where
  heap : ∀ p n, s'.heap.lookup p = some n → s.heap.lookup p = some n
  hash : ∀ p, s'.live p = true → s'.hash.lookup p = s.hash.lookup p
  ext : s'.ext = s.ext
  ctr : s'.hashCounter = s.hashCounter

theorem Shrinks.refl (s : St) : Shrinks s s := ⟨fun _ _ h => h, fun _ _ => rfl, rfl, rfl⟩
theorem Shrinks.live {s s' : St} (h : Shrinks s s') {p : Nat} (hl : s'.live p = true) : s.live p = true := by
  obtain ⟨n, hn⟩ := live_iff.mp hl
  exact live_iff.mpr ⟨n, h.heap p n hn⟩
theorem Shrinks.trans {s s' s'' : St} (h : Shrinks s s') (h' : Shrinks s' s'') : Shrinks s s'' :=
  ⟨fun p n hn => h.heap p n (h'.heap p n hn), fun p hl => (h'.hash p hl).trans (h.hash p (h'.live hl)),
   h'.ext.trans h.ext, h'.ctr.trans h.ctr⟩

theorem shrinks_delete {s s' : St} {todo todo' : List Nat} {e : Nat} (h : Inv s (e :: todo) [])
    (hd : s.delete todo e = some (s', todo')) : Shrinks s s' := by
  obtain ⟨_, h1, h2, h3, h4⟩ := h.delete hd
  have hl : ∀ p n, s'.heap.lookup p = some n → p ≠ e ∧ s.heap.lookup p = some n := by
    intro p n hp
    rw [h1, lookup_eraseKey] at hp
    by_cases he : p = e
    · simp [he] at hp
    · exact ⟨he, by simpa [he] using hp⟩
  refine ⟨fun p n hp => (hl p n hp).2, ?_, h2, h4⟩
  intro p hp
  obtain ⟨n, hn⟩ := live_iff.mp hp
  rw [h3, lookup_eraseKey, if_neg (hl p n hn).1]

theorem collect_inv : ∀ (n : Nat) (s s' : St) (todo : List Nat), Inv s todo [] → s.collect n todo = some s' →
    Inv s' [] [] ∧ Shrinks s s'
  | n, s, s', [], h, hc => by
    cases n <;> (simp only [St.collect, Option.some.injEq] at hc; subst hc; exact ⟨h, .refl _⟩)
  | 0, s, s', e :: todo, h, hc => by simp [St.collect] at hc
  | n+1, s, s', e :: todo, h, hc => by
    simp only [St.collect] at hc
    cases hd : s.delete todo e with
    | none => simp [hd] at hc
    | some r =>
      obtain ⟨s1, todo1⟩ := r
      simp only [hd] at hc
      obtain ⟨h1, h2⟩ := collect_inv n s1 s' todo1 (h.delete hd).1 hc
      exact ⟨h1, (shrinks_delete h hd).trans h2⟩

/-! ### Completeness of the trie -/

/-- every live term is found -/
def Complete (s : St) : Prop := ∀ p k cs, s.heap.lookup p = some (.app k cs) → (s.trie k).find cs = some p

/-- no live term's children are a prefix of another's -/
def PF (s : St) : Prop := ∀ p q k cs cs', s.heap.lookup p = some (.app k cs) → s.heap.lookup q = some (.app k cs') →
  cs <+: cs' → cs = cs'

theorem PF.shrinks {s s' : St} (h : PF s) (hs : Shrinks s s') : PF s' :=
  fun p q k cs cs' hp hq => h p q k cs cs' (hs.heap _ _ hp) (hs.heap _ _ hq)

theorem delete_complete {s : St} {todo : List Nat} {e : Nat} (h : Inv s (e :: todo) []) (hc : Complete s) (hp : PF s) :
    ∃ s' todo', s.delete todo e = some (s', todo') ∧ Complete s' := by
  obtain ⟨n, rc, todo', hn, hnl, h2, h3⟩ := delete_eq h
  have hr : ∃ r, (s.trie n.kind).remove n.children = some r := by
    cases n with
    | lit l => exact absurd rfl (hnl l)
    | sym k i => exact ⟨_, Trie.remove_nil _⟩
    | app k cs => exact Trie.remove_of_find (hc e k cs hn)
  obtain ⟨⟨t, d⟩, hr⟩ := hr
  rw [hr] at h3
  refine ⟨_, _, h3, ?_⟩
  obtain ⟨_, _, t3⟩ := Trie.remove_spec hr
  intro p k cs hpl'
  have hpl : (eraseKey e s.heap).lookup p = some (.app k cs) := hpl'
  clear hpl'
  show (upd s.trie n.kind t k).find cs = some p
  rw [lookup_eraseKey] at hpl
  by_cases hpe : p = e
  · simp [hpe] at hpl
  · rw [if_neg hpe] at hpl
    have hf := hc p k cs hpl
    unfold upd
    by_cases hk : k = n.kind
    · rw [if_pos hk]
      cases n with
      | lit l => exact absurd rfl (hnl l)
      | sym k' i =>
        have h4 := (h.kinds p k cs hpl).1
        have h5 := (h.symK e k' i hn).1
        rw [hk] at h4
        change symKind k' = false at h4
        rw [h4] at h5; simp at h5
      | app k' cs' =>
        have hk : k = k' := hk
        subst hk
        have hne : cs' ≠ cs := by
          rintro rfl
          have := hc e k cs' hn
          rw [hf] at this
          exact hpe (Option.some.inj this)
        rw [t3 cs (fun hx => hne (hp e p k cs' cs hn hpl hx)) (fun hx => hne (hp p e k cs cs' hpl hn hx).symm)]
        exact hf
    · rw [if_neg hk]; exact hf

theorem length_eraseKey {α : Type} {e : Nat} : ∀ {m : List (Nat × α)}, (m.map Prod.fst).Nodup → e ∈ m.map Prod.fst →
    (eraseKey e m).length + 1 ≤ m.length
  | [], _, h => by simp at h
  | (a, b) :: r, hn, h => by
    rw [List.map_cons, List.nodup_cons] at hn
    unfold eraseKey
    rw [List.filter_cons]
    by_cases ha : a = e
    · rw [if_neg (by simpa using ha)]
      have := List.length_filter_le (fun x : Nat × α => decide (x.1 ≠ e)) r
      simp only [List.length_cons]; omega
    · rw [if_pos (by simpa using ha)]
      have hm : e ∈ r.map Prod.fst := by
        rcases List.mem_cons.mp h with h | h
        · exact absurd h.symm ha
        · exact h
      have := length_eraseKey hn.2 hm
      unfold eraseKey at this
      simp only [List.length_cons]; omega

theorem collect_complete : ∀ (n : Nat) (s : St) (todo : List Nat), Inv s todo [] → Complete s → PF s → s.heap.length ≤ n →
    ∃ s', s.collect n todo = some s' ∧ Complete s'
  | n, s, [], _, hc, _, _ => ⟨s, by cases n <;> rfl, hc⟩
  | 0, s, e :: todo, h, _, _, hn => by
    have := live_key.mp (h.todoZ e (List.mem_cons_self ..)).1
    have : s.heap = [] := List.eq_nil_of_length_eq_zero (by omega)
    simp_all
  | n+1, s, e :: todo, h, hc, hp, hn => by
    obtain ⟨s1, todo1, hd, hc1⟩ := delete_complete h hc hp
    obtain ⟨h1, h2, _⟩ := h.delete hd
    have hl : s1.heap.length ≤ n := by
      rw [h2]
      have := length_eraseKey h.keys (live_key.mp (h.todoZ e (List.mem_cons_self ..)).1)
      omega
    obtain ⟨s', h3, h4⟩ := collect_complete n s1 todo1 h1 hc1 (hp.shrinks (shrinks_delete h hd)) hl
    exact ⟨s', by simp only [St.collect, hd]; exact h3, h4⟩

/-! ### Operations -/

theorem Inv.retain {s : St} {L : List Nat} {p : Nat} (h : Inv s L []) (hl : s.live p = true) (hL : ∀ x ∈ L, x = p) :
    Inv (s.retain p) [] [] := by
  have hr : ∀ x, refs (s.retain p) x = refs s x + (if x = p then 1 else 0) := by
    intro x
    show upd s.ext p (s.ext p + 1) x + childRefs s.heap x + valRefs s.att x + valRefs s.lits x = _
    unfold upd refs
    by_cases hx : x = p
    · subst hx; simp; omega
    · simp [hx]
  have hrc : ∀ x, (s.retain p).rc x = s.rc x + (if x = p then 1 else 0) := by
    intro x
    show upd s.rc p (s.rc p + 1) x = _
    unfold upd
    by_cases hx : x = p
    · subst hx; simp
    · simp [hx]
  refine {
    keys := h.keys, ord := h.ord, count := ?_, closed := ?_, pos := ?_, todoN := List.nodup_nil, todoZ := by simp,
    trieS := h.trieS, kinds := h.kinds, symK := h.symK, symU := h.symU, litU := h.litU, litE := h.litE, attK := h.attK,
    hashK := h.hashK, hashN := h.hashN, hashU := h.hashU }
  · intro x; rw [hr, hrc]; have := h.count x; simp only [List.count_nil] at this ⊢; omega
  · intro x hx
    rw [hr] at hx
    by_cases hxp : x = p
    · subst hxp; exact hl
    · exact h.closed x (by simpa [hxp] using hx)
  · intro x hx _
    rw [hrc]
    by_cases hxp : x = p
    · rw [if_pos hxp]; omega
    · have := h.pos x hx (fun hm => hxp (hL x hm)); omega

theorem foldl_inc : ∀ (cs : List Nat) (s : St), cs.foldl St.inc s = { s with rc := fun x => s.rc x + cs.count x }
  | [], s => by simp
  | c :: cs, s => by
    rw [List.foldl_cons, foldl_inc cs]
    unfold St.inc
    congr 1
    funext x
    simp only [upd]
    by_cases hx : x = c
    · subst hx; simp; omega
    · simp [hx, List.count_cons_of_ne (Ne.symm hx)]

theorem lookup_new {s : St} {a p : Nat} {n : Node} (ha : s.live a = false) :
    (∀ m, s.heap.lookup p = some m → ((a, n) :: s.heap).lookup p = some m) ∧
    (∀ m, ((a, n) :: s.heap).lookup p = some m → (p = a ∧ m = n) ∨ (p ≠ a ∧ s.heap.lookup p = some m)) := by
  constructor
  · intro m hm
    rw [lookupc, if_neg]; exact hm
    rintro rfl
    have := live_iff.mpr ⟨m, hm⟩
    rw [ha] at this; simp at this
  · intro m hm
    rw [lookupc] at hm
    by_cases hp : p = a
    · rw [if_pos hp] at hm; exact .inl ⟨hp, (Option.some.inj hm).symm⟩
    · rw [if_neg hp] at hm; exact .inr ⟨hp, hm⟩

theorem Inv.dead_refs {s : St} {L : List Nat} {a : Nat} (h : Inv s L []) (ha : s.live a = false) : refs s a = 0 := by
  cases hr : refs s a with
  | zero => rfl
  | succ m =>
    have := h.closed a (by rw [hr]; omega)
    rw [ha] at this; simp at this

/-- adding a new object to the heap; the trie, the literals and the counter are described by hypotheses -/
theorem Inv.new {s : St} {a : Nat} {n : Node} {trie : Kind → Trie} {lits : List (Lit × Nat)} {sc r0 : Nat} (h : Inv s [] [])
    (ha : s.live a = false) (hcs : ∀ c ∈ n.children, s.live c = true)
    (htr : ∀ k cs p, (trie k).find cs = some p → ((a, n) :: s.heap).lookup p = some (.app k cs))
    (hk : ∀ k cs, n = .app k cs → symKind k = false ∧ isLiteral k = false)
    (hs : ∀ k i, n = .sym k i → symKind k = true ∧ i = s.symCounter ∧ i < sc) (hsc : s.symCounter ≤ sc)
    (hlu : (lits.map Prod.fst).Nodup)
    (hle : ∀ l p, (l, p) ∈ lits ↔ (l, p) ∈ s.lits ∨ (p = a ∧ n = .lit l))
    (hlr : ∀ x, valRefs lits x = valRefs s.lits x + (if x = a then r0 else 0)) :
    Inv { s with
      heap := (a, n) :: s.heap, rc := fun x => upd s.rc a r0 x + n.children.count x, trie := trie, lits := lits
      symCounter := sc } (if r0 = 0 then [a] else []) [] := by
  have hac : a ∉ n.children := fun hm => by rw [hcs a hm] at ha; simp at ha
  have hd := h.dead_refs ha
  have hr : ∀ x, refs { s with
      heap := (a, n) :: s.heap, rc := fun x => upd s.rc a r0 x + n.children.count x, trie := trie, lits := lits
      symCounter := sc } x = refs s x + n.children.count x + (if x = a then r0 else 0) := by
    intro x
    have := hlr x
    unfold refs
    simp only [childRefs_cons]
    omega
  have hlive : ∀ x, ({ s with
      heap := (a, n) :: s.heap, rc := fun x => upd s.rc a r0 x + n.children.count x, trie := trie, lits := lits
      symCounter := sc } : St).live x = true ↔ x = a ∨ s.live x = true := by
    intro x
    rw [live_key, live_key, List.map_cons, List.mem_cons]
  refine {
    keys := ?_, ord := ?_, count := ?_, closed := ?_, pos := ?_, todoN := by split <;> simp, todoZ := ?_,
    trieS := htr, kinds := ?_, symK := ?_, symU := ?_, litU := hlu, litE := ?_, attK := ?_,
    hashK := ?_, hashN := h.hashN, hashU := h.hashU }
  · rw [List.map_cons, List.nodup_cons]
    refine ⟨fun hm => ?_, h.keys⟩
    rw [live_key.mpr hm] at ha; simp at ha
  · exact ⟨fun c hc => live_key.mp (hcs c hc), h.ord⟩
  · intro x
    rw [hr]
    have := h.count x
    simp only [List.count_nil, upd] at this ⊢
    by_cases hx : x = a
    · subst hx; simp only [hd, if_true]; omega
    · simp only [if_neg hx]; omega
  · intro x hx
    rw [hr] at hx
    rw [hlive]
    by_cases hxa : x = a
    · exact .inl hxa
    · right
      rw [if_neg hxa] at hx
      by_cases hc : x ∈ n.children
      · exact hcs x hc
      · rw [List.count_eq_zero.mpr hc] at hx
        exact h.closed x (by simpa using hx)
  · intro x hx hn
    show 0 < upd s.rc a r0 x + _
    unfold upd
    by_cases hxa : x = a
    · subst hxa
      rw [if_pos rfl]
      by_cases h0 : r0 = 0
      · rw [if_pos h0] at hn; simp at hn
      · omega
    · rw [if_neg hxa]
      have := h.pos x (((hlive x).mp hx).resolve_left hxa) (by simp)
      omega
  · intro x hx
    by_cases h0 : r0 = 0
    · rw [if_pos h0] at hx
      have hx : x = a := by simpa using hx
      subst hx
      refine ⟨(hlive x).mpr (.inl rfl), ?_⟩
      show upd s.rc x r0 x + _ = 0
      rw [List.count_eq_zero.mpr hac]; simp [upd, h0]
    · rw [if_neg h0] at hx; simp at hx
  · intro p k cs hp
    rcases (lookup_new ha).2 _ hp with ⟨_, h2⟩ | ⟨_, h2⟩
    · exact hk k cs h2.symm
    · exact h.kinds p k cs h2
  · intro p k i hp
    rcases (lookup_new ha).2 _ hp with ⟨_, h2⟩ | ⟨_, h2⟩
    · exact ⟨(hs k i h2.symm).1, (hs k i h2.symm).2.2⟩
    · exact ⟨(h.symK p k i h2).1, Nat.lt_of_lt_of_le (h.symK p k i h2).2 hsc⟩
  · intro p q k k' i hp hq
    rcases (lookup_new ha).2 _ hp with ⟨h1, h2⟩ | ⟨h1, h2⟩ <;> rcases (lookup_new ha).2 _ hq with ⟨h3, h4⟩ | ⟨h3, h4⟩
    · rw [h1, h3]
    · have := (hs k i h2.symm).2.1
      have := (h.symK q k' i h4).2
      omega
    · have := (hs k' i h4.symm).2.1
      have := (h.symK p k i h2).2
      omega
    · exact h.symU p q k k' i h2 h4
  · intro l p
    rw [hle l p, h.litE]
    constructor
    · rintro (h1 | ⟨rfl, rfl⟩)
      · exact (lookup_new ha).1 _ h1
      · show ((p, _) :: s.heap).lookup p = _
        rw [lookupc, if_pos rfl]
    · intro hp
      rcases (lookup_new ha).2 _ hp with ⟨h1, h2⟩ | ⟨h1, h2⟩
      · exact .inr ⟨h1, h2.symm⟩
      · exact .inl h2
  · intro p q hm; rw [hlive]; exact .inr (h.attK p q hm)
  · intro p x hm; rw [hlive]; exact ⟨.inr (h.hashK p x hm).1, (h.hashK p x hm).2⟩

theorem mkApp_inv {s : St} {k : Kind} {cs : List Nat} {a : Nat} (h : Inv s [] []) (hcs : ∀ c ∈ cs, s.live c = true)
    (ha : s.live a = false) (hk : symKind k = false ∧ isLiteral k = false) :
    ∃ L, Inv (s.mkApp k cs a).1 L [] ∧ (∀ x ∈ L, x = (s.mkApp k cs a).2) ∧
      (s.mkApp k cs a).1.heap.lookup (s.mkApp k cs a).2 = some (.app k cs) := by
  unfold St.mkApp
  cases hf : (s.trie k).find cs with
  | some p => exact ⟨[], h, by simp, h.trieS _ _ _ hf⟩
  | none =>
    simp only [foldl_inc]
    refine ⟨[a], ?_, by simp, ?_⟩
    · refine h.new (n := .app k cs) (r0 := 0) (sc := s.symCounter) ha hcs ?_ ?_ (by simp) (Nat.le_refl _) h.litU (by simp) (by simp)
      · intro k' cs' p hp
        unfold upd at hp
        by_cases hk' : k' = k
        · subst hk'
          rw [if_pos rfl, Trie.find_insert] at hp
          by_cases hc : cs' = cs
          · rw [if_pos hc] at hp
            rw [lookupc, if_pos (Option.some.inj hp).symm, hc]
          · rw [if_neg hc] at hp
            exact (lookup_new ha).1 _ (h.trieS _ _ _ hp)
        · rw [if_neg hk'] at hp
          exact (lookup_new ha).1 _ (h.trieS _ _ _ hp)
      · rintro k' cs' ⟨rfl, rfl⟩; exact hk
    · show ((a, _) :: s.heap).lookup a = _
      rw [lookupc, if_pos rfl]

theorem mkLit_inv {s : St} {l : Lit} {a : Nat} (h : Inv s [] []) (ha : s.live a = false) :
    Inv (s.mkLit l a).1 [] [] ∧ (s.mkLit l a).1.heap.lookup (s.mkLit l a).2 = some (.lit l) := by
  unfold St.mkLit
  cases hf : s.lits.lookup l with
  | some p => exact ⟨h, (h.litE l p).mp (lookup_mem hf)⟩
  | none =>
    constructor
    · have hn := h.new (n := .lit l) (r0 := 1) (sc := s.symCounter) (trie := s.trie) (lits := (l, a) :: s.lits) ha (by simp [Node.children])
        (fun k' cs' p hp => (lookup_new ha).1 _ (h.trieS _ _ _ hp)) (by simp) (by simp) (Nat.le_refl _)
        (by rw [List.map_cons, List.nodup_cons]; exact ⟨lookup_none_iff.mp hf, h.litU⟩)
        (by
          intro l' p
          rw [List.mem_cons, Prod.mk.injEq, or_comm]
          constructor
          · rintro (h1 | ⟨rfl, rfl⟩)
            · exact .inl h1
            · exact .inr ⟨rfl, rfl⟩
          · rintro (h1 | ⟨rfl, h2⟩)
            · exact .inl h1
            · exact .inr ⟨by cases h2; rfl, rfl⟩)
        (by
          intro x
          simp only [valRefs, List.map_cons, List.count_cons]
          by_cases hx : x = a
          · simp [hx]
          · have : (a == x) = false := by simpa using Ne.symm hx
            simp [hx, this])
      exact hn
    · show ((a, _) :: s.heap).lookup a = _
      rw [lookupc, if_pos rfl]

theorem mkSym_inv {s : St} {k : Kind} {a : Nat} (h : Inv s [] []) (ha : s.live a = false) (hk : symKind k = true) :
    Inv (s.mkSym k a).1 [a] [] ∧ (s.mkSym k a).1.heap.lookup a = some (.sym k s.symCounter) := by
  constructor
  · exact h.new (n := .sym k s.symCounter) (r0 := 0) (sc := s.symCounter + 1) (trie := s.trie) (lits := s.lits) ha (by simp [Node.children])
      (fun k' cs' p hp => (lookup_new ha).1 _ (h.trieS _ _ _ hp)) (by simp)
      (by rintro k' i ⟨rfl, rfl⟩; exact ⟨hk, rfl, by omega⟩) (by omega) h.litU (by simp) (by simp)
  · show ((a, _) :: s.heap).lookup a = _
    rw [lookupc, if_pos rfl]

theorem Inv.attach {s : St} {p q : Nat} (h : Inv s [] []) (hp : s.live p = true) (hq : s.live q = true) :
    Inv { s.inc q with att := (p, q) :: s.att } [] [] := by
  have hr : ∀ x, refs { s.inc q with att := (p, q) :: s.att } x = refs s x + (if x = q then 1 else 0) := by
    intro x
    show s.ext x + childRefs s.heap x + valRefs ((p, q) :: s.att) x + valRefs s.lits x = _
    unfold refs
    simp only [valRefs, List.map_cons, List.count_cons]
    by_cases hx : x = q
    · subst hx; simp; omega
    · have : (q == x) = false := by simpa using Ne.symm hx
      simp [hx, this]
  have hrc : ∀ x, (s.inc q).rc x = s.rc x + (if x = q then 1 else 0) := by
    intro x
    show upd s.rc q (s.rc q + 1) x = _
    unfold upd
    by_cases hx : x = q
    · subst hx; simp
    · simp [hx]
  refine {
    keys := h.keys, ord := h.ord, count := ?_, closed := ?_, pos := ?_, todoN := List.nodup_nil, todoZ := by simp,
    trieS := h.trieS, kinds := h.kinds, symK := h.symK, symU := h.symU, litU := h.litU, litE := h.litE, attK := ?_,
    hashK := h.hashK, hashN := h.hashN, hashU := h.hashU }
  · intro x
    rw [hr]
    show _ ≤ (s.inc q).rc x
    rw [hrc]; have := h.count x; simp only [List.count_nil] at this ⊢; omega
  · intro x hx
    rw [hr] at hx
    by_cases hxp : x = q
    · subst hxp; exact hq
    · exact h.closed x (by simpa [hxp] using hx)
  · intro x hx _
    show 0 < (s.inc q).rc x
    rw [hrc]; have := h.pos x hx (by simp); omega
  · intro x y hm
    rcases List.mem_cons.mp hm with h1 | h1
    · obtain ⟨rfl, rfl⟩ := Prod.mk.inj h1; exact hp
    · exact h.attK x y h1

theorem Inv.getHash {s : St} {p : Nat} (h : Inv s [] []) (hp : s.live p = true) : Inv (s.getHash p).1 [] [] := by
  unfold St.getHash
  cases hl : s.hash.lookup p with
  | some x => exact h
  | none =>
    refine {
      keys := h.keys, ord := h.ord, count := h.count, closed := h.closed, pos := h.pos, todoN := h.todoN, todoZ := h.todoZ,
      trieS := h.trieS, kinds := h.kinds, symK := h.symK, symU := h.symU, litU := h.litU, litE := h.litE, attK := h.attK,
      hashK := ?_, hashN := ?_, hashU := ?_ }
    · intro x y hm
      show s.live x = true ∧ y ≤ s.hashCounter + 1
      rcases List.mem_cons.mp hm with h1 | h1
      · obtain ⟨rfl, rfl⟩ := Prod.mk.inj h1; exact ⟨hp, Nat.le_refl _⟩
      · exact ⟨(h.hashK x y h1).1, Nat.le_succ_of_le (h.hashK x y h1).2⟩
    · rw [List.map_cons, List.nodup_cons]; exact ⟨lookup_none_iff.mp hl, h.hashN⟩
    · rw [List.map_cons, List.nodup_cons]
      refine ⟨fun hm => ?_, h.hashU⟩
      obtain ⟨⟨x, y⟩, hxy, he⟩ := List.mem_map.mp hm
      have := (h.hashK x y hxy).2
      simp only at he
      omega

/-- giving up a handle turns it into a pending reference -/
theorem Inv.unhold {s : St} {p : Nat} (h : Inv s [] []) (hp : 0 < s.ext p) :
    Inv { s with ext := upd s.ext p (s.ext p - 1) } [] [p] := by
  have hr : ∀ x, refs { s with ext := upd s.ext p (s.ext p - 1) } x + [p].count x = refs s x := by
    intro x
    show upd s.ext p (s.ext p - 1) x + childRefs s.heap x + valRefs s.att x + valRefs s.lits x + _ = _
    unfold refs upd
    by_cases hx : x = p
    · subst hx; simp; omega
    · have : (p == x) = false := by simpa using Ne.symm hx
      simp [hx, List.count_cons, this]
  refine {
    keys := h.keys, ord := h.ord, count := ?_, closed := ?_, pos := h.pos, todoN := List.nodup_nil, todoZ := by simp,
    trieS := h.trieS, kinds := h.kinds, symK := h.symK, symU := h.symU, litU := h.litU, litE := h.litE, attK := h.attK,
    hashK := h.hashK, hashN := h.hashN, hashU := h.hashU }
  · intro x; rw [hr]; have := h.count x; simpa using this
  · intro x hx; rw [hr] at hx; exact h.closed x (by simpa using hx)

/-- the state in which the collection triggered by a release starts -/
theorem release_eq {s : St} {p : Nat} (h : Inv s [] []) (hp : 0 < s.ext p) :
    ∃ s1 todo, Inv s1 todo [] ∧ s.release p = s1.collect s1.heap.length todo ∧ s1.heap = s.heap ∧ s1.trie = s.trie ∧
      s1.hash = s.hash ∧ s1.hashCounter = s.hashCounter ∧ s1.ext = upd s.ext p (s.ext p - 1) := by
  have h1 := (h.unhold hp).dec
  unfold St.release St.dec
  by_cases h0 : s.rc p - 1 = 0
  · simp only [h0, if_true] at h1 ⊢
    exact ⟨_, _, h1, rfl, rfl, rfl, rfl, rfl, rfl⟩
  · simp only [h0, if_false] at h1 ⊢
    exact ⟨_, _, h1, rfl, rfl, rfl, rfl, rfl, rfl⟩

theorem retain_live {s : St} {p : Nat} : ∀ x, (s.retain p).live x = s.live x := fun _ => rfl

theorem step_inv {s s' : St} {o : Op} {r : Nat} (h : Inv s [] []) (ha : s.allowed o = true) (hs : s.step o = some (s', r)) :
    Inv s' [] [] := by
  cases o with
  | app k cs a =>
    simp only [St.allowed, Bool.and_eq_true, Bool.not_eq_true', List.all_eq_true] at ha
    obtain ⟨⟨⟨h1, h2⟩, h3⟩, h4⟩ := ha
    simp only [St.step, Option.some.injEq, Prod.mk.injEq] at hs
    obtain ⟨rfl, rfl⟩ := hs
    obtain ⟨L, h5, h6, h7⟩ := mkApp_inv (a := a) h h1 h2 ⟨h3, h4⟩
    exact h5.retain (live_iff.mpr ⟨_, h7⟩) h6
  | lit l a =>
    simp only [St.allowed, Bool.not_eq_true'] at ha
    simp only [St.step, Option.some.injEq, Prod.mk.injEq] at hs
    obtain ⟨rfl, rfl⟩ := hs
    obtain ⟨h5, h7⟩ := mkLit_inv (l := l) h ha
    exact h5.retain (live_iff.mpr ⟨_, h7⟩) (by simp)
  | sym k a =>
    simp only [St.allowed, Bool.and_eq_true, Bool.not_eq_true'] at ha
    simp only [St.step, Option.some.injEq, Prod.mk.injEq] at hs
    obtain ⟨rfl, rfl⟩ := hs
    obtain ⟨h5, h7⟩ := mkSym_inv h ha.1 ha.2
    exact h5.retain (live_iff.mpr ⟨_, h7⟩) (by simp [St.mkSym])
  | retain p =>
    simp only [St.step, Option.some.injEq, Prod.mk.injEq] at hs
    obtain ⟨rfl, rfl⟩ := hs
    exact h.retain ha (by simp)
  | release p =>
    have hp : 0 < s.ext p := by simpa [St.allowed] using ha
    simp only [St.step, Option.map_eq_some_iff, Prod.mk.injEq] at hs
    obtain ⟨s2, hs, rfl, rfl⟩ := hs
    obtain ⟨s1, todo, h1, h2, _⟩ := release_eq h hp
    rw [h2] at hs
    exact (collect_inv _ _ _ _ h1 hs).1
  | attach p q =>
    simp only [St.allowed, Bool.and_eq_true] at ha
    simp only [St.step, Option.some.injEq, Prod.mk.injEq] at hs
    obtain ⟨rfl, rfl⟩ := hs
    exact h.attach ha.1 ha.2
  | hash p =>
    simp only [St.step, Option.some.injEq] at hs
    have : s' = (s.getHash p).1 := by rw [hs]
    subst this
    exact h.getHash ha

theorem run_inv {P : St → Prop} {s s' : St} {h : List (Op × Nat)} (hr : RunIn P s h s') (hi : Inv s [] []) : Inv s' [] [] := by
  induction hr with
  | nil => exact hi
  | cons s s1 s2 o r h _ ha hs _ ih => exact ih (step_inv hi ha hs)

/-! ### What an operation adds to the heap -/

/-- operations other than `release` keep all live terms -/
theorem step_keeps {s s' : St} {o : Op} {r : Nat} (ha : s.allowed o = true) (hs : s.step o = some (s', r))
    (hn : ∀ p, o ≠ .release p) : ∀ p n, s.heap.lookup p = some n → s'.heap.lookup p = some n := by
  intro p n hp
  cases o with
  | app k cs a =>
    simp only [St.allowed, Bool.and_eq_true, Bool.not_eq_true', List.all_eq_true] at ha
    simp only [St.step, Option.some.injEq, Prod.mk.injEq] at hs
    obtain ⟨rfl, rfl⟩ := hs
    show (s.mkApp k cs a).1.heap.lookup p = _
    unfold St.mkApp
    cases (s.trie k).find cs with
    | some q => exact hp
    | none => simp only [foldl_inc]; exact (lookup_new ha.1.1.2).1 _ hp
  | lit l a =>
    simp only [St.allowed, Bool.not_eq_true'] at ha
    simp only [St.step, Option.some.injEq, Prod.mk.injEq] at hs
    obtain ⟨rfl, rfl⟩ := hs
    show (s.mkLit l a).1.heap.lookup p = _
    unfold St.mkLit
    cases s.lits.lookup l with
    | some q => exact hp
    | none => exact (lookup_new ha).1 _ hp
  | sym k a =>
    simp only [St.allowed, Bool.and_eq_true, Bool.not_eq_true'] at ha
    simp only [St.step, Option.some.injEq, Prod.mk.injEq] at hs
    obtain ⟨rfl, rfl⟩ := hs
    exact (lookup_new ha.1).1 _ hp
  | retain q =>
    simp only [St.step, Option.some.injEq, Prod.mk.injEq] at hs
    obtain ⟨rfl, rfl⟩ := hs
    exact hp
  | release q => exact absurd rfl (hn q)
  | attach q q' =>
    simp only [St.step, Option.some.injEq, Prod.mk.injEq] at hs
    obtain ⟨rfl, rfl⟩ := hs
    exact hp
  | hash q =>
    simp only [St.step, Option.some.injEq] at hs
    have : s' = (s.getHash q).1 := by rw [hs]
    subst this
    unfold St.getHash
    cases s.hash.lookup q <;> exact hp

/-- every application on the heap was there or has just been built -/
theorem step_apps {s s' : St} {o : Op} {r : Nat} (h : Inv s [] []) (ha : s.allowed o = true) (hs : s.step o = some (s', r))
    {p : Nat} {k : Kind} {cs : List Nat} (hp : s'.heap.lookup p = some (.app k cs)) :
    s.heap.lookup p = some (.app k cs) ∨ (∃ a, o = .app k cs a) := by
  cases o with
  | app k' cs' a =>
    simp only [St.allowed, Bool.and_eq_true, Bool.not_eq_true', List.all_eq_true] at ha
    simp only [St.step, Option.some.injEq, Prod.mk.injEq] at hs
    obtain ⟨rfl, rfl⟩ := hs
    have hp' : (s.mkApp k' cs' a).1.heap.lookup p = some (.app k cs) := hp
    clear hp
    unfold St.mkApp at hp'
    cases hf : (s.trie k').find cs' with
    | some q => rw [hf] at hp'; exact .inl hp'
    | none =>
      simp only [hf, foldl_inc] at hp'
      rcases (lookup_new ha.1.1.2).2 _ hp' with ⟨_, h1⟩ | ⟨_, h1⟩
      · injection h1 with h1 h2; subst h1; subst h2; exact .inr ⟨a, rfl⟩
      · exact .inl h1
  | lit l a =>
    simp only [St.allowed, Bool.not_eq_true'] at ha
    simp only [St.step, Option.some.injEq, Prod.mk.injEq] at hs
    obtain ⟨rfl, rfl⟩ := hs
    have hp' : (s.mkLit l a).1.heap.lookup p = some (.app k cs) := hp
    clear hp
    unfold St.mkLit at hp'
    cases hf : s.lits.lookup l with
    | some q => rw [hf] at hp'; exact .inl hp'
    | none =>
      rw [hf] at hp'
      rcases (lookup_new ha).2 _ hp' with ⟨_, h1⟩ | ⟨_, h1⟩
      · simp at h1
      · exact .inl h1
  | sym k a =>
    simp only [St.allowed, Bool.and_eq_true, Bool.not_eq_true'] at ha
    simp only [St.step, Option.some.injEq, Prod.mk.injEq] at hs
    obtain ⟨rfl, rfl⟩ := hs
    rcases (lookup_new ha.1).2 _ hp with ⟨_, h1⟩ | ⟨_, h1⟩
    · simp at h1
    · exact .inl h1
  | retain q =>
    simp only [St.step, Option.some.injEq, Prod.mk.injEq] at hs
    obtain ⟨rfl, rfl⟩ := hs
    exact .inl hp
  | release q =>
    have hq : 0 < s.ext q := by simpa [St.allowed] using ha
    simp only [St.step, Option.map_eq_some_iff, Prod.mk.injEq] at hs
    obtain ⟨s2, hs, rfl, rfl⟩ := hs
    obtain ⟨s1, todo, h1, h2, h3, _⟩ := release_eq h hq
    rw [h2] at hs
    exact .inl (h3 ▸ (collect_inv _ _ _ _ h1 hs).2.heap _ _ hp)
  | attach q q' =>
    simp only [St.step, Option.some.injEq, Prod.mk.injEq] at hs
    obtain ⟨rfl, rfl⟩ := hs
    exact .inl hp
  | hash q =>
    simp only [St.step, Option.some.injEq] at hs
    have : s' = (s.getHash q).1 := by rw [hs]
    subst this
    unfold St.getHash at hp
    cases hl : s.hash.lookup q <;> (rw [hl] at hp; exact .inl hp)

/-- operations do not get stuck while every live term is found in its trie and no list of children is a prefix of
another -/
theorem step_complete {s : St} {o : Op} (h : Inv s [] []) (ha : s.allowed o = true) (hc : Complete s)
    (hp : (∃ p, o = .release p) → PF s) : ∃ s' r, s.step o = some (s', r) ∧ Complete s' := by
  cases o with
  | app k cs a =>
    simp only [St.allowed, Bool.and_eq_true, Bool.not_eq_true', List.all_eq_true] at ha
    refine ⟨_, _, rfl, ?_⟩
    intro p k' cs' hp'
    have hp2 : (s.mkApp k cs a).1.heap.lookup p = some (.app k' cs') := hp'
    clear hp'
    show ((s.mkApp k cs a).1.trie k').find cs' = some p
    unfold St.mkApp at hp2 ⊢
    cases hf : (s.trie k).find cs with
    | some q => rw [hf] at hp2; exact hc p k' cs' hp2
    | none =>
      simp only [hf, foldl_inc] at hp2 ⊢
      unfold upd
      rcases (lookup_new ha.1.1.2).2 _ hp2 with ⟨h0, h1⟩ | ⟨h0, h1⟩
      · injection h1 with h1 h2; subst h1; subst h2; subst h0
        rw [if_pos rfl, Trie.find_insert, if_pos rfl]
      · have := hc p k' cs' h1
        by_cases hk : k' = k
        · subst hk
          rw [if_pos rfl, Trie.find_insert, if_neg]
          · exact this
          · rintro rfl; rw [hf] at this; simp at this
        · rw [if_neg hk]; exact this
  | lit l a =>
    simp only [St.allowed, Bool.not_eq_true'] at ha
    refine ⟨_, _, rfl, ?_⟩
    intro p k' cs' hp'
    have hp2 : (s.mkLit l a).1.heap.lookup p = some (.app k' cs') := hp'
    clear hp'
    show ((s.mkLit l a).1.trie k').find cs' = some p
    unfold St.mkLit at hp2 ⊢
    cases hf : s.lits.lookup l with
    | some q => rw [hf] at hp2; exact hc p k' cs' hp2
    | none =>
      rw [hf] at hp2
      rcases (lookup_new ha).2 _ hp2 with ⟨h0, h1⟩ | ⟨h0, h1⟩
      · simp at h1
      · exact hc p k' cs' h1
  | sym k a =>
    simp only [St.allowed, Bool.and_eq_true, Bool.not_eq_true'] at ha
    refine ⟨_, _, rfl, ?_⟩
    intro p k' cs' hp'
    rcases (lookup_new ha.1).2 _ hp' with ⟨h0, h1⟩ | ⟨h0, h1⟩
    · simp at h1
    · exact hc p k' cs' h1
  | retain q => exact ⟨_, _, rfl, hc⟩
  | release q =>
    have hq : 0 < s.ext q := by simpa [St.allowed] using ha
    obtain ⟨s1, todo, h1, h2, h3, h4, _⟩ := release_eq h hq
    have hpf := hp ⟨q, rfl⟩
    have hc1 : Complete s1 := by unfold Complete; rw [h3, h4]; exact hc
    have hp1 : PF s1 := by unfold PF; rw [h3]; exact hpf
    obtain ⟨s', h5, h6⟩ := collect_complete _ s1 todo h1 hc1 hp1 (Nat.le_refl _)
    exact ⟨s', q, by simp [St.step, h2, h5], h6⟩
  | attach q q' => exact ⟨_, _, rfl, hc⟩
  | hash q =>
    refine ⟨(s.getHash q).1, (s.getHash q).2, rfl, ?_⟩
    unfold St.getHash
    cases s.hash.lookup q <;> exact hc

theorem complete_init : Complete St.init := by intro p k cs h; simp [St.init] at h

/-- the applications on the heap at the end of a history were built in it -/
theorem run_apps {P : St → Prop} {s s' : St} {h : List (Op × Nat)} (hr : RunIn P s h s') (hi : Inv s [] []) {p : Nat} {k : Kind}
    {cs : List Nat} (hp : s'.heap.lookup p = some (.app k cs)) :
    s.heap.lookup p = some (.app k cs) ∨ ∃ a r, (Op.app k cs a, r) ∈ h := by
  induction hr with
  | nil => exact .inl hp
  | cons s s1 s2 o r h _ ha hs _ ih =>
    rcases ih (step_inv hi ha hs) hp with h1 | ⟨a, r', h1⟩
    · rcases step_apps hi ha hs h1 with h2 | ⟨a, rfl⟩
      · exact .inl h2
      · exact .inr ⟨a, r, List.mem_cons_self ..⟩
    · exact .inr ⟨a, r', List.mem_cons_of_mem _ h1⟩

theorem run_snoc {P : St → Prop} {s s' : St} {h : List (Op × Nat)} (hr : RunIn P s h s') {o : Op} {r : Nat} {s2 : St}
    (ha : s'.allowed o = true) (hs : s'.step o = some (s2, r)) (hp : P s2) : RunIn P s (h ++ [(o, r)]) s2 := by
  induction hr with
  | nil s h0 => exact .cons _ _ _ _ _ _ h0 ha hs (.nil _ hp)
  | cons s s1 s3 o' r' h h0 ha' hs' _ ih => exact .cons _ _ _ _ _ _ h0 ha' hs' (ih ha hs)

/-- split off the last operation -/
theorem run_last {P : St → Prop} {s s' : St} {h : List (Op × Nat)} {o : Op} {r : Nat} (hr : RunIn P s (h ++ [(o, r)]) s') :
    ∃ s1, RunIn P s h s1 ∧ s1.allowed o = true ∧ s1.step o = some (s', r) ∧ P s' := by
  induction h generalizing s with
  | nil =>
    cases hr with
    | cons _ s1 _ _ _ _ h0 ha hs hr =>
      cases hr with
      | nil _ h1 => exact ⟨s, .nil _ h0, ha, hs, h1⟩
  | cons x h ih =>
    cases hr with
    | cons _ s1 _ o' r' _ h0 ha hs hr =>
      obtain ⟨s2, h1, h2⟩ := ih hr
      exact ⟨s2, .cons _ _ _ _ _ _ h0 ha hs h1, h2⟩

theorem list_snoc_ind {α : Type} {P : List α → Prop} (h0 : P []) (h1 : ∀ l x, P l → P (l ++ [x])) (l : List α) : P l := by
  have : ∀ l, P (List.reverse l) := by
    intro l
    induction l with
    | nil => exact h0
    | cons a l ih => rw [List.reverse_cons]; exact h1 _ _ ih
  simpa using this l.reverse

/-- completeness at the end of a history without releases or prefix-free -/
theorem run_complete {P : St → Prop} {h : List (Op × Nat)} (hpf : NoRelease h ∨ PrefixFree h) :
    ∀ {s' : St}, RunIn P St.init h s' → Complete s' := by
  induction h using list_snoc_ind with
  | h0 => intro s' hr; cases hr; exact complete_init
  | h1 h x ih =>
    obtain ⟨o, r⟩ := x
    intro s' hr
    obtain ⟨s1, h1, h2, h3, _⟩ := run_last hr
    have hsub : NoRelease h ∨ PrefixFree h := by
      rcases hpf with hpf | hpf
      · exact .inl fun p r hm => hpf p r (List.mem_append_left _ hm)
      · exact .inr fun k cs cs' a a' r r' ha hb => hpf k cs cs' a a' r r' (List.mem_append_left _ ha) (List.mem_append_left _ hb)
    have hi := run_inv h1 inv_init
    obtain ⟨s2, r2, h4, h5⟩ := step_complete hi h2 (ih hsub h1) (by
      rintro ⟨p, rfl⟩
      rcases hpf with hpf | hpf
      · exact absurd (List.mem_append_right _ (List.mem_cons_self ..)) (hpf p r)
      · intro p q k cs cs' hp hq
        rcases run_apps h1 inv_init hp with h6 | ⟨a, r1, h6⟩
        · simp [St.init] at h6
        rcases run_apps h1 inv_init hq with h7 | ⟨a', r', h7⟩
        · simp [St.init] at h7
        exact hpf k cs cs' a a' r1 r' (List.mem_append_left _ h6) (List.mem_append_left _ h7))
    rw [h3] at h4
    obtain ⟨rfl, rfl⟩ := Prod.mk.inj (Option.some.inj h4)
    exact h5

theorem childRefs_pos {h : List (Nat × Node)} {p c : Nat} {n : Node} (hm : (p, n) ∈ h) (hc : c ∈ n.children) :
    0 < childRefs h c := by
  cases h0 : childRefs h c with
  | zero => exact absurd hc (childRefs_zero h0 _ _ hm)
  | succ => omega

/-! ### Denotation -/

theorem denotes_det {s : St} : ∀ {p : Nat} {t t' : Term}, Denotes s p t → Denotes s p t' → t = t' := by
  intro p t t' h
  induction h generalizing t' with
  | app p k cs ts hl hlen _ ih =>
    intro h'
    cases h' with
    | app _ k' cs' ts' hl' hlen' hc' =>
      rw [hl] at hl'
      injection Option.some.inj hl' with h1 h2
      subst h1; subst h2
      congr 1
      apply List.ext_getElem (by omega)
      intro i h1 h2
      have hi : i < cs.length := by omega
      exact ih i cs[i] ts[i] (List.getElem?_eq_getElem hi) (List.getElem?_eq_getElem h1)
        (hc' i cs[i] ts'[i] (List.getElem?_eq_getElem hi) (List.getElem?_eq_getElem h2))
    | lit _ l hl' => rw [hl] at hl'; simp at hl'
    | sym _ k i hl' => rw [hl] at hl'; simp at hl'
  | lit p l hl =>
    intro h'
    cases h' with
    | app _ k' cs' ts' hl' hlen' hc' => rw [hl] at hl'; simp at hl'
    | lit _ l hl' => rw [hl] at hl'; injection Option.some.inj hl' with h1; rw [h1]
    | sym _ k i hl' => rw [hl] at hl'; simp at hl'
  | sym p k i hl =>
    intro h'
    cases h' with
    | app _ k' cs' ts' hl' hlen' hc' => rw [hl] at hl'; simp at hl'
    | lit _ l hl' => rw [hl] at hl'; simp at hl'
    | sym _ k i hl' => rw [hl] at hl'; injection Option.some.inj hl' with h1 h2; rw [h1, h2]

theorem denotes_unique {s : St} (h : Inv s [] []) (hc : Complete s) : ∀ {p q : Nat} {t : Term}, Denotes s p t → Denotes s q t → p = q := by
  intro p q t hp
  induction hp generalizing q with
  | app p k cs ts hl hlen _ ih =>
    intro h'
    cases h' with
    | app _ _ cs' _ hl' hlen' hc' =>
      have : cs = cs' := by
        apply List.ext_getElem (by omega)
        intro i h1 h2
        have hi : i < ts.length := by omega
        exact ih i cs[i] ts[i] (List.getElem?_eq_getElem h1) (List.getElem?_eq_getElem hi)
          (hc' i cs'[i] ts[i] (List.getElem?_eq_getElem h2) (List.getElem?_eq_getElem hi))
      subst this
      have h1 := hc p k cs hl
      rw [hc q k cs hl'] at h1
      exact (Option.some.inj h1).symm
  | lit p l hl =>
    intro h'
    cases h' with
    | lit _ _ hl' =>
      have h1 := mem_lookup h.litU ((h.litE l p).mpr hl)
      have h2 := mem_lookup h.litU ((h.litE l q).mpr hl')
      rw [h1] at h2; exact Option.some.inj h2
  | sym p k i hl =>
    intro h'
    cases h' with
    | sym _ _ _ hl' => exact h.symU _ _ _ _ _ hl hl'

theorem denotes_exists_aux {s : St} : ∀ (m : List (Nat × Node)), Ordered m → (∀ p n, (p, n) ∈ m → s.heap.lookup p = some n) →
    ∀ p n, (p, n) ∈ m → ∃ t, Denotes s p t
  | [], _, _, p, n, h => by simp at h
  | (a, b) :: m, ho, hm, p, n, hp => by
    have ih := denotes_exists_aux m ho.2 (fun p n h => hm p n (List.mem_cons_of_mem _ h))
    rcases List.mem_cons.mp hp with h1 | h1
    · obtain ⟨rfl, rfl⟩ := Prod.mk.inj h1
      have hl := hm p n (List.mem_cons_self ..)
      cases n with
      | lit l => exact ⟨_, .lit _ _ hl⟩
      | sym k i => exact ⟨_, .sym _ _ _ hl⟩
      | app k cs =>
        have hcs : ∀ c ∈ cs, ∃ t, Denotes s c t := by
          intro c hc
          obtain ⟨⟨c', n'⟩, h1, rfl⟩ := List.mem_map.mp (ho.1 c hc)
          exact ih _ _ h1
        have : ∀ (cs : List Nat), (∀ c ∈ cs, ∃ t, Denotes s c t) → ∃ ts : List Term, cs.length = ts.length ∧
            ∀ (i : Nat) (c : Nat) (t : Term), cs[i]? = some c → ts[i]? = some t → Denotes s c t := by
          intro cs
          induction cs with
          | nil => intro _; exact ⟨[], rfl, by simp⟩
          | cons c cs ih =>
            intro h
            obtain ⟨ts, h1, h2⟩ := ih (fun c hc => h c (List.mem_cons_of_mem _ hc))
            obtain ⟨t, ht⟩ := h c (List.mem_cons_self ..)
            refine ⟨t :: ts, by simp [h1], ?_⟩
            intro i c' t' h3 h4
            cases i with
            | zero => simp at h3 h4; subst h3; subst h4; exact ht
            | succ i => simp at h3 h4; exact h2 i c' t' h3 h4
        obtain ⟨ts, h2, h3⟩ := this cs hcs
        exact ⟨_, .app p k cs ts hl h2 h3⟩
    · exact ih p n h1

theorem denotes_exists {s : St} (h : Inv s [] []) {p : Nat} (hp : s.live p = true) : ∃ t, Denotes s p t := by
  obtain ⟨n, hn⟩ := live_iff.mp hp
  exact denotes_exists_aux s.heap h.ord (fun p n hm => mem_lookup h.keys hm) p n (lookup_mem hn)

theorem denotes_live {s : St} {p : Nat} {t : Term} (h : Denotes s p t) : s.live p = true := by
  cases h with
  | app _ _ _ _ h => exact live_iff.mpr ⟨_, h⟩
  | lit _ _ h => exact live_iff.mpr ⟨_, h⟩
  | sym _ _ _ h => exact live_iff.mpr ⟨_, h⟩

theorem denotes_mono {s s' : St} (hk : ∀ p n, s.heap.lookup p = some n → s'.heap.lookup p = some n) {p : Nat} {t : Term}
    (h : Denotes s p t) : Denotes s' p t := by
  induction h with
  | app p k cs ts hl hlen _ ih => exact .app p k cs ts (hk _ _ hl) hlen ih
  | lit p l hl => exact .lit _ _ (hk _ _ hl)
  | sym p k i hl => exact .sym _ _ _ (hk _ _ hl)

end Ethos.Store
