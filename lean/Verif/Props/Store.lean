import Verif.Lemmas.StoreRun
/-
C13, C19, C20: the term store.
-/
namespace Ethos.Props
open Ethos Ethos.Store Kind

/-! ### C19: hash-consing -/

/-- **C19**.  Every live handle denotes exactly one term, after any history, including deletions. -/
theorem C19_denotes {h : List (Op × Nat)} {s : St} (hr : Run St.init h s) {p : Nat} (hp : s.live p = true) :
    (∃ t, Denotes s p t) ∧ ∀ t t', Denotes s p t → Denotes s p t' → t = t' :=
  ⟨denotes_exists (run_inv hr inv_init) hp, fun _ _ => denotes_det⟩

/-- **C19**.  After any sequence of constructions (and other operations that delete nothing), two handles are identical
exactly if they denote the same term. -/
theorem C19_unique {h : List (Op × Nat)} {s : St} (hr : Run St.init h s) (hn : NoRelease h) {p q : Nat} {t t' : Term}
    (hp : Denotes s p t) (hq : Denotes s q t') : p = q ↔ t = t' := by
  constructor
  · rintro rfl; exact denotes_det hp hq
  · rintro rfl; exact denotes_unique (run_inv hr inv_init) (run_complete (.inl hn) hr) hp hq

/-- what construction operations must return: a live handle that denotes the term, all other handles unchanged -/
theorem step_app_denotes {s s' : St} {k : Kind} {cs : List Nat} {ts : List Term} {a r : Nat} (hi : Inv s [] [])
    (ha : s.allowed (.app k cs a) = true) (hs : s.step (.app k cs a) = some (s', r)) (hlen : cs.length = ts.length)
    (hc : ∀ (i c : Nat) (t : Term), cs[i]? = some c → ts[i]? = some t → Denotes s c t) :
    Denotes s' r (.node k ts) ∧ ∀ p t, Denotes s p t → Denotes s' p t := by
  have hk := step_keeps ha hs (by simp)
  refine ⟨?_, fun p t => denotes_mono hk⟩
  refine .app r k cs ts ?_ hlen (fun i c t h1 h2 => denotes_mono hk (hc i c t h1 h2))
  simp only [St.allowed, Bool.and_eq_true, Bool.not_eq_true', List.all_eq_true] at ha
  obtain ⟨⟨⟨h1, h2⟩, h3⟩, h4⟩ := ha
  simp only [St.step, Option.some.injEq, Prod.mk.injEq] at hs
  obtain ⟨rfl, rfl⟩ := hs
  obtain ⟨L, _, _, h7⟩ := mkApp_inv (a := a) hi h1 h2 ⟨h3, h4⟩
  exact h7

/-- **C19**.  Building a term from the handles of its children returns a handle that denotes it (after any history),
and no handle changes its meaning. -/
theorem C19_build {h : List (Op × Nat)} {s s' : St} (hr : Run St.init h s) {k : Kind} {cs : List Nat} {ts : List Term} {a r : Nat}
    (ha : s.allowed (.app k cs a) = true) (hs : s.step (.app k cs a) = some (s', r)) (hlen : cs.length = ts.length)
    (hc : ∀ (i c : Nat) (t : Term), cs[i]? = some c → ts[i]? = some t → Denotes s c t) :
    Denotes s' r (.node k ts) ∧ ∀ p t, Denotes s p t → Denotes s' p t :=
  step_app_denotes (run_inv hr inv_init) ha hs hlen hc

/-- **C19**.  Building a literal returns the handle that denotes it, and the same one if there was one already, even
after deletions. -/
theorem C19_literal {h : List (Op × Nat)} {s s' : St} (hr : Run St.init h s) {l : Lit} {a r : Nat}
    (ha : s.allowed (.lit l a) = true) (hs : s.step (.lit l a) = some (s', r)) :
    Denotes s' r (.lit l) ∧ (∀ p t, Denotes s p t → Denotes s' p t) ∧ ∀ p, Denotes s p (.lit l) → r = p := by
  have hi := run_inv hr inv_init
  have hk := step_keeps ha hs (by simp)
  have hi' := step_inv hi ha hs
  simp only [St.allowed, Bool.not_eq_true'] at ha
  simp only [St.step, Option.some.injEq, Prod.mk.injEq] at hs
  obtain ⟨rfl, rfl⟩ := hs
  obtain ⟨_, h7⟩ := mkLit_inv (l := l) hi ha
  refine ⟨.lit _ _ h7, fun p t => denotes_mono hk, fun p hp => ?_⟩
  cases hp with
  | lit _ _ hl =>
    have h1 := mem_lookup hi'.litU ((hi'.litE l _).mpr h7)
    rw [mem_lookup hi'.litU ((hi'.litE l p).mpr (hk _ _ hl))] at h1
    exact (Option.some.inj h1).symm

/-- **C19**.  A new symbol differs from every other term. -/
theorem C19_symbol {h : List (Op × Nat)} {s s' : St} (hr : Run St.init h s) {k : Kind} {a r : Nat}
    (ha : s.allowed (.sym k a) = true) (hs : s.step (.sym k a) = some (s', r)) :
    s.live r = false ∧ ∃ i, Denotes s' r (.sym k i) ∧ ∀ p t, Denotes s p t → Denotes s' p t ∧ t ≠ .sym k i := by
  have hi := run_inv hr inv_init
  have hk := step_keeps ha hs (by simp)
  simp only [St.allowed, Bool.and_eq_true, Bool.not_eq_true'] at ha
  simp only [St.step, Option.some.injEq, Prod.mk.injEq] at hs
  obtain ⟨rfl, rfl⟩ := hs
  obtain ⟨_, h7⟩ := mkSym_inv hi ha.1 ha.2
  refine ⟨ha.1, s.symCounter, .sym _ _ _ h7, fun p t hp => ⟨denotes_mono hk hp, ?_⟩⟩
  rintro rfl
  cases hp with
  | sym _ _ _ hl => exact absurd (hi.symK _ _ _ hl).2 (Nat.lt_irrefl _)

/-- **C19**.  While nothing is deleted no operation has undefined behaviour. -/
theorem C19_no_ub {h : List (Op × Nat)} {s : St} (hr : Run St.init h s) (hn : NoRelease h) {o : Op} (ha : s.allowed o = true)
    (ho : ∀ p, o ≠ .release p) : ∃ s' r, s.step o = some (s', r) := by
  obtain ⟨s', r, h1, _⟩ := step_complete (run_inv hr inv_init) ha (run_complete (.inl hn) hr)
    (by rintro ⟨p, rfl⟩; exact absurd rfl (ho p))
  exact ⟨s', r, h1⟩

/-! ### Running a list of operations, for examples -/

/-- run a list of operations -/
def exec (s : St) : List Op → Option (St × List (Op × Nat))
  | [] => some (s, [])
  | o :: os => if s.allowed o then
      match s.step o with
      | some (s1, r) => (exec s1 os).map (fun x => (x.1, (o, r) :: x.2))
      | none => none
    else none

theorem exec_run : ∀ (os : List Op) (s s' : St) (h : List (Op × Nat)), exec s os = some (s', h) → Run s h s'
  | [], s, s', h, he => by
    simp only [exec, Option.some.injEq, Prod.mk.injEq] at he
    obtain ⟨rfl, rfl⟩ := he
    exact .nil _ trivial
  | o :: os, s, s', h, he => by
    unfold exec at he
    cases ha : s.allowed o with
    | false => simp [ha] at he
    | true =>
      rw [ha] at he
      simp only [if_true] at he
      cases hs : s.step o with
      | none => rw [hs] at he; simp at he
      | some x =>
        obtain ⟨s1, r⟩ := x
        simp only [hs, Option.map_eq_some_iff, Prod.mk.injEq] at he
        obtain ⟨⟨s2, h2⟩, h3, rfl, rfl⟩ := he
        exact .cons _ _ _ _ _ _ trivial ha hs (exec_run os s1 s2 h2 h3)

theorem exec_get {α : Type} {os : List Op} {x : St × List (Op × Nat)} (f : St × List (Op × Nat) → α) {v : α}
    (he : exec St.init os = some x) (h : (exec St.init os).map f = some v) : f x = v := by
  rw [he] at h; exact Option.some.inj h

/-- two symbols, a term built twice, and the same children under another kind -/
def exOps : List Op :=
  [.sym CONST 1, .sym CONST 2, .app APPLY [1, 2] 3, .app APPLY [1, 2] 4, .app FUNCTION_TYPE [1, 2] 4, .lit (.num 7) 5,
   .lit (.num 7) 6]

/-- the constructions of `exOps` return 1, 2, 3, 3, 4, 5, 5 -/
example : (exec St.init exOps).map (fun x => x.2.map Prod.snd) = some [1, 2, 3, 3, 4, 5, 5] := by decide

/-! ### C20: deletion -/

theorem run_ext {P : St → Prop} {s s' : St} {h : List (Op × Nat)} (hr : RunIn P s h s') (hi : Inv s [] []) (p : Nat) :
    s'.ext p + released h p = s.ext p + acquired h p := by
  induction hr with
  | nil => simp [released, acquired]
  | cons s s1 s2 o r h _ ha hs _ ih =>
    have ih := ih (step_inv hi ha hs)
    have hstep : s1.ext p + (if o.releases p then 1 else 0) = s.ext p + (if o.acquires && decide (r = p) then 1 else 0) := by
      have hret : ∀ (s : St) (q : Nat), (s.retain q).ext p = s.ext p + (if q = p then 1 else 0) := by
        intro s q
        show upd s.ext q (s.ext q + 1) p = _
        unfold upd
        by_cases hq : p = q
        · subst hq; simp
        · simp [hq, Ne.symm hq]
      cases o with
      | app k cs a =>
        simp only [St.step, Option.some.injEq, Prod.mk.injEq] at hs
        obtain ⟨rfl, rfl⟩ := hs
        have : (s.mkApp k cs a).1.ext = s.ext := by
          unfold St.mkApp
          cases (s.trie k).find cs with
          | some q => rfl
          | none => simp only [foldl_inc]
        rw [hret, this]; simp [Op.releases, Op.acquires]
      | lit l a =>
        simp only [St.step, Option.some.injEq, Prod.mk.injEq] at hs
        obtain ⟨rfl, rfl⟩ := hs
        have : (s.mkLit l a).1.ext = s.ext := by unfold St.mkLit; cases s.lits.lookup l <;> rfl
        rw [hret, this]; simp [Op.releases, Op.acquires]
      | sym k a =>
        simp only [St.step, Option.some.injEq, Prod.mk.injEq] at hs
        obtain ⟨rfl, rfl⟩ := hs
        rw [hret]; simp [Op.releases, Op.acquires, show ((s.mkSym k a).1).ext = s.ext from rfl]
      | retain q =>
        simp only [St.step, Option.some.injEq, Prod.mk.injEq] at hs
        obtain ⟨rfl, rfl⟩ := hs
        rw [hret]; simp [Op.releases, Op.acquires]
      | release q =>
        have hq : 0 < s.ext q := by simpa [St.allowed] using ha
        simp only [St.step, Option.map_eq_some_iff, Prod.mk.injEq] at hs
        obtain ⟨s2, hs, rfl, rfl⟩ := hs
        obtain ⟨s0, todo, h1, h2, _, _, _, _, h3⟩ := release_eq hi hq
        rw [h2] at hs
        rw [(collect_inv _ _ _ _ h1 hs).2.ext, h3]
        unfold upd
        by_cases hp : p = q
        · subst hp; simp [Op.releases, Op.acquires]; omega
        · simp [Op.releases, Op.acquires, hp, Ne.symm hp]
      | attach q q' =>
        simp only [St.step, Option.some.injEq, Prod.mk.injEq] at hs
        obtain ⟨rfl, rfl⟩ := hs
        simp [Op.releases, Op.acquires, St.inc]
      | hash q =>
        simp only [St.step, Option.some.injEq] at hs
        have : s1 = (s.getHash q).1 := by rw [hs]
        subst this
        unfold St.getHash
        cases s.hash.lookup q <;> simp [Op.releases, Op.acquires]
    unfold released acquired at ih ⊢
    simp only [List.filter_cons]
    cases h1 : o.releases p <;> cases h2 : (o.acquires && decide (r = p)) <;>
      simp only [h1, h2, if_true, if_false, List.length_cons, Bool.false_eq_true] at hstep ⊢ <;> omega

theorem held_live {s : St} (hi : Inv s [] []) {p : Nat} (hp : 0 < s.ext p) : s.live p = true :=
  hi.closed p (by unfold refs; omega)

/-- **C20**.  A term is alive as long as the client has not given up every handle it got: no use after free through
a held handle, after any history. -/
theorem C20_held {h : List (Op × Nat)} {s : St} (hr : Run St.init h s) {p : Nat} (hp : released h p < acquired h p) :
    s.live p = true := by
  have := run_ext hr inv_init p
  exact held_live (run_inv hr inv_init) (by simp [St.init] at this; omega)

theorem live_children {s : St} (hi : Inv s [] []) {p : Nat} {k : Kind} {cs : List Nat} (hp : s.heap.lookup p = some (.app k cs)) :
    ∀ c ∈ cs, s.live c = true := by
  intro c hc
  apply hi.closed c
  have := childRefs_pos (c := c) (lookup_mem hp) hc
  unfold refs; omega

theorem step_stable {s s' : St} {o : Op} {r : Nat} (hi : Inv s [] []) (ha : s.allowed o = true) (hs : s.step o = some (s', r))
    {p : Nat} {t : Term} (hp : Denotes s p t) : s'.live p = true → Denotes s' p t := by
  have hi' := step_inv hi ha hs
  by_cases hrel : ∃ q, o = .release q
  · obtain ⟨q, rfl⟩ := hrel
    have hq : 0 < s.ext q := by simpa [St.allowed] using ha
    simp only [St.step, Option.map_eq_some_iff, Prod.mk.injEq] at hs
    obtain ⟨s2, hs, rfl, rfl⟩ := hs
    obtain ⟨s0, todo, h1, h2, h3, _⟩ := release_eq hi hq
    rw [h2] at hs
    have hsh := (collect_inv _ _ _ _ h1 hs).2
    have key : ∀ x, s2.live x = true → s2.heap.lookup x = s.heap.lookup x := by
      intro x hx
      obtain ⟨n, hn⟩ := live_iff.mp hx
      rw [hn, ← h3, hsh.heap _ _ hn]
    induction hp with
    | app p k cs ts hl hlen _ ih =>
      intro hlv
      have hl' := (key p hlv).trans hl
      refine .app p k cs ts hl' hlen (fun i c t h5 h6 => ih i c t h5 h6 ?_)
      exact live_children hi' hl' c (List.mem_of_getElem? h5)
    | lit p l hl => intro hlv; exact .lit _ _ ((key p hlv).trans hl)
    | sym p k i hl => intro hlv; exact .sym _ _ _ ((key p hlv).trans hl)
  · intro _
    exact denotes_mono (step_keeps ha hs (fun p hp' => hrel ⟨p, hp'⟩)) hp

/-- **C20**.  Deletions never change the term denoted by a handle that stays alive. -/
theorem C20_stable {h0 h : List (Op × Nat)} {s s' : St} (hr0 : Run St.init h0 s) {p : Nat} {t : Term}
    (hr : RunIn (fun s => s.live p = true) s h s') (hp : Denotes s p t) : Denotes s' p t := by
  have hi := run_inv hr0 inv_init
  clear hr0
  induction hr with
  | nil => exact hp
  | cons s s1 s2 o r h hP ha hs hrest ih =>
    have hl1 : s1.live p = true := by cases hrest <;> assumption
    exact ih (step_stable hi ha hs hp hl1) (step_inv hi ha hs)

/-- **C20**, for histories in which no term is built whose list of children is a proper prefix of the one of another term
of the same kind: after any history of constructions and deletions, handles are identical exactly if they
denote the same term.  Missing: terms with a variable number of arguments, for which the statement is false
(`C20_fails_duplicate`). -/
theorem C20_unique_partial {h : List (Op × Nat)} {s : St} (hr : Run St.init h s) (hpf : PrefixFree h) {p q : Nat} {t t' : Term}
    (hp : Denotes s p t) (hq : Denotes s q t') : p = q ↔ t = t' := by
  constructor
  · rintro rfl; exact denotes_det hp hq
  · rintro rfl; exact denotes_unique (run_inv hr inv_init) (run_complete (.inr hpf) hr) hp hq

/-- **C20**, same restriction: constructing a term that is still alive returns the handle that denotes it. -/
theorem C20_rebuild_partial {h : List (Op × Nat)} {s s' : St} (hr : Run St.init h s) {k : Kind} {cs : List Nat} {ts : List Term}
    {a r p : Nat} (hpf : PrefixFree (h ++ [(.app k cs a, r)])) (ha : s.allowed (.app k cs a) = true)
    (hs : s.step (.app k cs a) = some (s', r)) (hlen : cs.length = ts.length)
    (hc : ∀ (i c : Nat) (t : Term), cs[i]? = some c → ts[i]? = some t → Denotes s c t) (hp : Denotes s p (.node k ts)) : r = p := by
  obtain ⟨h1, h2⟩ := C19_build hr ha hs hlen hc
  exact (C20_unique_partial (run_snoc hr ha hs trivial) hpf h1 (h2 _ _ hp)).mpr rfl

/-- **C20**, same restriction: no operation, including deletion, has undefined behaviour (a write to freed memory at
the end of `ExprTrie::remove` aside, see `C20_fails_dangling`). -/
theorem C20_no_ub_partial {h : List (Op × Nat)} {s : St} (hr : Run St.init h s) (hpf : PrefixFree h) {o : Op}
    (ha : s.allowed o = true) : ∃ s' r, s.step o = some (s', r) := by
  obtain ⟨s', r, h1, _⟩ := step_complete (run_inv hr inv_init) ha (run_complete (.inr hpf) hr) (by
    rintro ⟨p, rfl⟩
    intro p q k cs cs' hp hq
    rcases run_apps hr inv_init hp with h6 | ⟨a, r1, h6⟩
    · simp [St.init] at h6
    rcases run_apps hr inv_init hq with h7 | ⟨a', r', h7⟩
    · simp [St.init] at h7
    exact hpf k cs cs' a a' r1 r' h6 h7)
  exact ⟨s', r, h1⟩

/-- a term is built, deleted together with what was stored for it, and built again at the same address -/
def exDel : List Op :=
  [.sym CONST 1, .sym CONST 2, .app APPLY [1, 2] 3, .app APPLY [1, 3] 4, .attach 4 3, .hash 4, .release 3, .release 4,
   .app APPLY [1, 2] 5, .app APPLY [1, 3] 4]

example : (exec St.init exDel).map (fun x => (x.2.map Prod.snd, x.1.heap.map Prod.fst)) =
    some ([1, 2, 3, 4, 3, 1, 3, 4, 3, 4], [4, 3, 2, 1]) := by decide

example : ∃ s h, Run St.init h s ∧ PrefixFree h ∧ (Op.release 4, 4) ∈ h ∧ released h 3 < acquired h 3 := by
  cases he : exec St.init exDel with
  | none => exact absurd he (by decide)
  | some x =>
    have hh : x.2 = [(.sym CONST 1, 1), (.sym CONST 2, 2), (.app APPLY [1, 2] 3, 3), (.app APPLY [1, 3] 4, 4), (.attach 4 3, 3),
        (.hash 4, 1), (.release 3, 3), (.release 4, 4), (.app APPLY [1, 2] 5, 3), (.app APPLY [1, 3] 4, 4)] :=
      exec_get Prod.snd he rfl
    refine ⟨x.1, x.2, exec_run _ _ _ _ he, ?_, ?_, ?_⟩
    · rw [hh]
      intro k cs cs' a a' r r' h1 h2 h3
      have h4 : cs.length = 2 := by simp at h1; rcases h1 with h | h | h | h <;> simp [h]
      have h5 : cs'.length = 2 := by simp at h2; rcases h2 with h | h | h | h <;> simp [h]
      exact h3.eq_of_length (by omega)
    · rw [hh]; simp
    · rw [hh]; decide

/-- the types of two programs over the same types, one with one argument, the other with two; the longer one is
deleted; then the shorter one is built again -/
def dupOps : List Op :=
  [.sym CONST 1, .app PROGRAM_TYPE [1, 1] 2, .app PROGRAM_TYPE [1, 1, 1] 3, .release 3, .app PROGRAM_TYPE [1, 1] 4]

/-- **C20** is false: deleting a term makes a live term unfindable if its children are a prefix; constructing the live term
again returns a second handle. -/
theorem C20_fails_duplicate : ∃ h s p q t, Run St.init h s ∧ Denotes s p t ∧ Denotes s q t ∧ p ≠ q ∧
    released h p < acquired h p ∧ released h q < acquired h q := by
  cases he : exec St.init dupOps with
  | none => exact absurd he (by decide)
  | some x =>
    have hh : x.2 = [(.sym CONST 1, 1), (.app PROGRAM_TYPE [1, 1] 2, 2), (.app PROGRAM_TYPE [1, 1, 1] 3, 3), (.release 3, 3),
        (.app PROGRAM_TYPE [1, 1] 4, 4)] :=
      exec_get Prod.snd he rfl
    have hs : x.1.heap = [(4, .app PROGRAM_TYPE [1, 1]), (2, .app PROGRAM_TYPE [1, 1]), (1, .sym CONST 0)] :=
      exec_get (fun x => x.1.heap) he rfl
    have h1 : Denotes x.1 1 (.sym CONST 0) := .sym _ _ _ (by rw [hs]; rfl)
    have hd : ∀ p, x.1.heap.lookup p = some (.app PROGRAM_TYPE [1, 1]) →
        Denotes x.1 p (.node PROGRAM_TYPE [.sym CONST 0, .sym CONST 0]) := by
      intro p hp
      refine .app _ _ _ _ hp rfl ?_
      intro i c t hc ht
      match i with
      | 0 => simp at hc ht; subst hc; subst ht; exact h1
      | 1 => simp at hc ht; subst hc; subst ht; exact h1
      | i+2 => simp at hc
    refine ⟨x.2, x.1, 2, 4, _, exec_run _ _ _ _ he, hd 2 (by rw [hs]; rfl), hd 4 (by rw [hs]; rfl), by decide, ?_, ?_⟩
    · rw [hh]; decide
    · rw [hh]; decide

/-- **C20** is false: deleting the shorter term afterwards dereferences an end iterator (undefined behaviour). -/
theorem C20_fails_ub : ∃ h s p, Run St.init h s ∧ s.allowed (.release p) = true ∧ s.step (.release p) = none := by
  cases he : exec St.init (dupOps.take 4) with
  | none => exact absurd he (by decide)
  | some x =>
    have hs : x.1.allowed (.release 2) = true :=
      exec_get (fun x => x.1.allowed (.release 2)) he rfl
    have hs' : x.1.step (.release 2) = none := by
      have := exec_get (fun x => (x.1.step (.release 2)).isNone) (v := true) he rfl
      simpa using this
    exact ⟨x.2, x.1, 2, exec_run _ _ _ _ he, hs, hs'⟩

/-- deleting a term usually writes to freed memory: the node of the trie has been erased before its data is set to
null -/
theorem C20_fails_dangling : St.init.dangling = false ∧ ∃ h s, Run St.init h s ∧ s.dangling = true := by
  refine ⟨rfl, ?_⟩
  cases he : exec St.init [.sym CONST 1, .sym CONST 2, .app APPLY [1, 2] 3, .release 3] with
  | none => exact absurd he (by decide)
  | some x =>
    have hs : x.1.dangling = true :=
      exec_get (fun x => x.1.dangling) he rfl
    exact ⟨x.2, x.1, exec_run _ _ _ _ he, hs⟩

/-- terms are not reclaimed if they were the child of a term: the client has given up all its handles, but the symbols
stay alive -/
theorem C20_leak : ∃ h s, Run St.init h s ∧ (∀ p, acquired h p = released h p) ∧ s.live 1 = true := by
  cases he : exec St.init [.sym CONST 1, .app APPLY [1, 1] 2, .release 2, .release 1] with
  | none => exact absurd he (by decide)
  | some x =>
    have hh : x.2 = [(.sym CONST 1, 1), (.app APPLY [1, 1] 2, 2), (.release 2, 2), (.release 1, 1)] :=
      exec_get Prod.snd he rfl
    have hs : x.1.live 1 = true :=
      exec_get (fun x => x.1.live 1) he rfl
    refine ⟨x.2, x.1, exec_run _ _ _ _ he, ?_, hs⟩
    intro p
    rw [hh]
    simp only [acquired, released, List.filter_cons, List.filter_nil, Op.acquires, Op.releases, Bool.true_and, Bool.false_and,
      Bool.false_eq_true, if_false, decide_eq_true_eq]
    by_cases h1 : 1 = p
    · subst h1; rfl
    · by_cases h2 : 2 = p
      · subst h2; rfl
      · simp [h1, h2]

/-! ### C13: hash and cmp -/

theorem getHash_lookup (s : St) (p : Nat) : (s.getHash p).1.hash.lookup p = some (s.getHash p).2 := by
  unfold St.getHash
  cases hl : s.hash.lookup p with
  | some x => exact hl
  | none => simp

theorem getHash_keeps (s : St) (p : Nat) {q x : Nat} (h : s.hash.lookup q = some x) : (s.getHash p).1.hash.lookup q = some x := by
  unfold St.getHash
  cases hl : s.hash.lookup p with
  | some y => exact h
  | none =>
    show ((p, _) :: s.hash).lookup q = _
    rw [lookupc, if_neg]
    · exact h
    · rintro rfl; rw [hl] at h; simp at h

theorem getHash_heap (s : St) (p : Nat) : (s.getHash p).1.heap = s.heap := by
  unfold St.getHash
  cases s.hash.lookup p <;> rfl

theorem getHash_live (s : St) (p q : Nat) : (s.getHash p).1.live q = s.live q := by
  unfold St.live; rw [getHash_heap]

/-- the hash of a term does not change while it is alive -/
theorem step_hash {s s' : St} {o : Op} {r : Nat} (hi : Inv s [] []) (ha : s.allowed o = true) (hs : s.step o = some (s', r))
    {p x : Nat} (hp : s.hash.lookup p = some x) (hl : s'.live p = true) : s'.hash.lookup p = some x := by
  cases o with
  | app k cs a =>
    simp only [St.step, Option.some.injEq, Prod.mk.injEq] at hs
    obtain ⟨rfl, rfl⟩ := hs
    show (s.mkApp k cs a).1.hash.lookup p = _
    unfold St.mkApp
    cases (s.trie k).find cs with
    | some q => exact hp
    | none => simp only [foldl_inc]; exact hp
  | lit l a =>
    simp only [St.step, Option.some.injEq, Prod.mk.injEq] at hs
    obtain ⟨rfl, rfl⟩ := hs
    show (s.mkLit l a).1.hash.lookup p = _
    unfold St.mkLit
    cases s.lits.lookup l <;> exact hp
  | sym k a =>
    simp only [St.step, Option.some.injEq, Prod.mk.injEq] at hs
    obtain ⟨rfl, rfl⟩ := hs
    exact hp
  | retain q =>
    simp only [St.step, Option.some.injEq, Prod.mk.injEq] at hs
    obtain ⟨rfl, rfl⟩ := hs
    exact hp
  | release q =>
    have hq : 0 < s.ext q := by simpa [St.allowed] using ha
    simp only [St.step, Option.map_eq_some_iff, Prod.mk.injEq] at hs
    obtain ⟨s2, hs, rfl, rfl⟩ := hs
    obtain ⟨s0, todo, h1, h2, _, _, h3, _⟩ := release_eq hi hq
    rw [h2] at hs
    rw [(collect_inv _ _ _ _ h1 hs).2.hash p hl, h3]
    exact hp
  | attach q q' =>
    simp only [St.step, Option.some.injEq, Prod.mk.injEq] at hs
    obtain ⟨rfl, rfl⟩ := hs
    exact hp
  | hash q =>
    simp only [St.step, Option.some.injEq] at hs
    have : s' = (s.getHash q).1 := by rw [hs]
    subst this
    exact getHash_keeps s q hp

theorem run_hash {P : St → Prop} {s s' : St} {h : List (Op × Nat)} (hr : RunIn P s h s') (hi : Inv s [] []) {p x : Nat}
    (hP : ∀ s, P s → s.live p = true) (hp : s.hash.lookup p = some x) : s'.hash.lookup p = some x := by
  induction hr with
  | nil => exact hp
  | cons s s1 s2 o r h hP0 ha hs hrest ih =>
    have hl1 : P s1 := by cases hrest <;> assumption
    exact ih (step_inv hi ha hs) (step_hash hi ha hs hp (hP _ hl1))

theorem getHash_of_lookup {s : St} {p x : Nat} (h : s.hash.lookup p = some x) : s.getHash p = (s, x) := by
  unfold St.getHash; rw [h]

/-- the comparison after both terms have been given a hash -/
theorem cmp_spec {s : St} (hi : Inv s [] []) {a b : Nat} (ha : s.live a = true) (hb : s.live b = true) :
    ∃ x y, (s.cmp a b).1.hash.lookup a = some x ∧ (s.cmp a b).1.hash.lookup b = some y ∧ (s.cmp a b).2 = decide (x > y) ∧
      Inv (s.cmp a b).1 [] [] ∧ ∀ p, (s.cmp a b).1.live p = s.live p := by
  refine ⟨(s.getHash a).2, ((s.getHash a).1.getHash b).2, ?_, ?_, rfl, ?_, ?_⟩
  · exact getHash_keeps _ _ (getHash_lookup s a)
  · exact getHash_lookup _ b
  · exact (hi.getHash ha).getHash (by rw [getHash_live]; exact hb)
  · intro p
    show ((s.getHash a).1.getHash b).1.live p = _
    rw [getHash_live, getHash_live]

theorem cmp_of_lookup {s : St} {a b x y : Nat} (ha : s.hash.lookup a = some x) (hb : s.hash.lookup b = some y) :
    s.cmp a b = (s, decide (x > y)) := by
  unfold St.cmp
  rw [getHash_of_lookup ha]
  simp only
  rw [getHash_of_lookup hb]

theorem hash_inj {s : St} (hi : Inv s [] []) {a b x : Nat} (ha : s.hash.lookup a = some x) (hb : s.hash.lookup b = some x) :
    a = b := by
  have h1 := lookup_mem ha
  have h2 := lookup_mem hb
  have hu := hi.hashU
  revert h1 h2 hu
  generalize s.hash = m
  intro h1 h2 hu
  clear ha hb hi
  induction m with
  | nil => simp at h1
  | cons z m ih =>
    rw [List.map_cons, List.nodup_cons] at hu
    rcases List.mem_cons.mp h1 with h3 | h3 <;> rcases List.mem_cons.mp h2 with h4 | h4
    · rw [← h3] at h4; exact (Prod.mk.inj h4).1.symm
    · subst h3; exact absurd (List.mem_map_of_mem (f := Prod.snd) h4) hu.1
    · subst h4; exact absurd (List.mem_map_of_mem (f := Prod.snd) h3) hu.1
    · exact ih h3 h4 hu.2

/-- **C13**.  `eo::cmp` of a term with itself is false, in any state. -/
theorem C13_irreflexive {h : List (Op × Nat)} {s : St} (hr : Run St.init h s) {a : Nat} (ha : s.live a = true) :
    (s.cmp a a).2 = false := by
  obtain ⟨x, y, h1, h2, h3, _⟩ := cmp_spec (run_inv hr inv_init) ha ha
  rw [h1] at h2
  have := Option.some.inj h2
  rw [h3]; simp; omega

/-- **C13**.  After `eo::cmp a b` has been asked once, asking again gives the same answer, and asking for `b a` with
`a` and `b` different gives the opposite one, whatever happens in between, as long as both are alive. -/
theorem C13_stable {h h1 : List (Op × Nat)} {s s1 : St} (hr : Run St.init h s) {a b : Nat} (ha : s.live a = true)
    (hb : s.live b = true) (hr1 : RunIn (fun s => s.live a = true ∧ s.live b = true) (s.cmp a b).1 h1 s1) :
    (s1.cmp a b).2 = (s.cmp a b).2 ∧ (a ≠ b → (s1.cmp b a).2 = !(s.cmp a b).2) := by
  obtain ⟨x, y, h2, h3, h4, h5, _⟩ := cmp_spec (run_inv hr inv_init) ha hb
  have h6 := run_hash hr1 h5 (fun _ h => h.1) h2
  have h7 := run_hash hr1 h5 (fun _ h => h.2) h3
  have hi1 := run_inv hr1 h5
  rw [h4, cmp_of_lookup h6 h7, cmp_of_lookup h7 h6]
  refine ⟨rfl, fun hab => ?_⟩
  have : x ≠ y := by rintro rfl; exact hab (hash_inj hi1 h6 h7)
  show decide (y > x) = !decide (x > y)
  by_cases hxy : x > y
  · simp [hxy]; omega
  · simp [hxy]; omega

/-- **C13**.  `eo::cmp` is transitive, whatever happens between the three questions, as long as the terms stay alive as
long as they are needed. -/
theorem C13_transitive {h h1 h2 : List (Op × Nat)} {s s1 s2 : St} (hr : Run St.init h s) {a b c : Nat} (ha : s.live a = true)
    (hb : s.live b = true) (hab : (s.cmp a b).2 = true)
    (hr1 : RunIn (fun s => s.live a = true ∧ s.live b = true) (s.cmp a b).1 h1 s1) (hc : s1.live c = true)
    (hbc : (s1.cmp b c).2 = true)
    (hr2 : RunIn (fun s => s.live a = true ∧ s.live c = true) (s1.cmp b c).1 h2 s2) : (s2.cmp a c).2 = true := by
  obtain ⟨x, y, h3, h4, h5, h6, _⟩ := cmp_spec (run_inv hr inv_init) ha hb
  have h7 := run_hash hr1 h6 (fun _ h => h.1) h3
  have h8 := run_hash hr1 h6 (fun _ h => h.2) h4
  have hi1 := run_inv hr1 h6
  have hb1 : s1.live b = true := (hi1.hashK _ _ (lookup_mem h8)).1
  obtain ⟨y', z, k1, k2, k3, k4, _⟩ := cmp_spec hi1 hb1 hc
  have hy : y = y' := by
    have : (s1.cmp b c).1.hash.lookup b = some y := getHash_keeps _ _ (getHash_keeps _ _ h8)
    rw [k1] at this; exact (Option.some.inj this).symm
  subst hy
  have k5 : (s1.cmp b c).1.hash.lookup a = some x := getHash_keeps _ _ (getHash_keeps _ _ h7)
  have k6 := run_hash hr2 k4 (fun _ h => h.1) k5
  have k7 := run_hash hr2 k4 (fun _ h => h.2) k2
  rw [cmp_of_lookup k6 k7]
  rw [h5] at hab
  rw [k3] at hbc
  simp only [decide_eq_true_eq] at hab hbc ⊢
  omega

/-- **C13**, while at most 2^32 - 1 terms have been hashed: asking for `eo::hash` of two live terms, at different times, gives
the same numeral exactly if the handles are the same.  Missing: longer histories, for which it is
false (`C13_fails_collision`); with `C19_unique` or `C20_unique_partial` the handles are the same exactly if the terms
are, which fails otherwise (`C20_fails_duplicate`). -/
theorem C13_hash_partial {h h1 : List (Op × Nat)} {s s1 : St} (hr : Run St.init h s) {a b : Nat} (ha : s.live a = true)
    (hr1 : RunIn (fun s => s.live a = true) (s.hashNum a).1 h1 s1) (hb : s1.live b = true)
    (hcnt : (s1.hashNum b).1.hashCounter < 2 ^ 32) : (s.hashNum a).2 = (s1.hashNum b).2 ↔ a = b := by
  have hi := run_inv hr inv_init
  have h2 := getHash_lookup s a
  have h3 : s1.hash.lookup a = some (s.getHash a).2 := run_hash hr1 (hi.getHash ha) (fun _ h => h) h2
  have hi2 := (run_inv hr1 (hi.getHash ha)).getHash hb
  have h4 := getHash_keeps s1 b h3
  have h5 := getHash_lookup s1 b
  have hle : ∀ x y, (s1.getHash b).1.hash.lookup x = some y → y < 2 ^ 32 := by
    intro x y hxy
    exact Nat.lt_of_le_of_lt (hi2.hashK _ _ (lookup_mem hxy)).2 hcnt
  show (s.getHash a).2 % 2 ^ 32 = (s1.getHash b).2 % 2 ^ 32 ↔ _
  rw [Nat.mod_eq_of_lt (hle _ _ h4), Nat.mod_eq_of_lt (hle _ _ h5)]
  constructor
  · intro he
    rw [← he] at h5
    exact hash_inj hi2 h4 h5
  · rintro rfl
    rw [h4] at h5
    exact Option.some.inj h5

/-- a history that makes and hashes `n` symbols -/
theorem many_hashes (n : Nat) : ∃ h s, Run St.init h s ∧ (∀ p, s.live p = true ↔ p < n) ∧
    (∀ p, p < n → s.hash.lookup p = some (p + 1)) ∧ s.hashCounter = n ∧ ∀ p, n ≤ p → s.hash.lookup p = none := by
  induction n with
  | zero => exact ⟨[], St.init, .nil _ trivial, by simp [St.live, St.init], by simp, rfl, by simp [St.init]⟩
  | succ n ih =>
    obtain ⟨h, s, hr, h1, h2, h3, h4⟩ := ih
    have hl : s.live n = false := by
      cases hx : s.live n with
      | false => rfl
      | true => exact absurd ((h1 n).mp hx) (Nat.lt_irrefl _)
    have ha : s.allowed (.sym CONST n) = true := by simp [St.allowed, hl]; rfl
    have hr1 := run_snoc hr ha rfl trivial
    generalize hs1 : (s.mkSym CONST n).1.retain (s.mkSym CONST n).2 = s1 at hr1
    have e1 : s1.heap = (n, .sym CONST s.symCounter) :: s.heap := by rw [← hs1]; rfl
    have e2 : s1.hash = s.hash := by rw [← hs1]; rfl
    have e3 : s1.hashCounter = s.hashCounter := by rw [← hs1]; rfl
    have hlive : ∀ p, s1.live p = true ↔ p < n + 1 := by
      intro p
      have := h1 p
      unfold St.live at this ⊢
      rw [e1, lookupc]
      by_cases hp : p = n
      · simp [hp]
      · rw [if_neg hp, this]; omega
    have ha1 : s1.allowed (.hash n) = true := (hlive n).mpr (by omega)
    have hs : s1.step (.hash n) = some ((s1.getHash n).1, (s1.getHash n).2) := rfl
    have hr2 := run_snoc hr1 ha1 hs trivial
    refine ⟨_, (s1.getHash n).1, hr2, ?_, ?_, ?_, ?_⟩
    · intro p; rw [getHash_live]; exact hlive p
    · intro p hp
      by_cases hpn : p = n
      · subst hpn
        rw [getHash_lookup]
        unfold St.getHash
        rw [e2, h4 p (Nat.le_refl _), e3, h3]
      · exact getHash_keeps _ _ (by rw [e2]; exact h2 p (by omega))
    · unfold St.getHash
      rw [e2, h4 n (Nat.le_refl _), e3, h3]
    · intro p hp
      unfold St.getHash
      rw [e2, h4 n (Nat.le_refl _)]
      show ((n, _) :: s.hash).lookup p = _
      rw [lookupc, if_neg (by omega)]
      exact h4 p (by omega)

/-- **C13** is false for long histories: two different live terms get the same numeral from `eo::hash`. -/
theorem C13_fails_collision : ∃ h s a b, Run St.init h s ∧ s.live a = true ∧ s.live b = true ∧ a ≠ b ∧
    (s.hashNum a).2 = (s.hashNum b).2 := by
  obtain ⟨h, s, hr, h1, h2, _⟩ := many_hashes (2 ^ 32 + 1)
  refine ⟨h, s, 0, 2 ^ 32, hr, (h1 0).mpr (by omega), (h1 _).mpr (by omega), by omega, ?_⟩
  unfold St.hashNum
  rw [getHash_of_lookup (h2 0 (by omega)), getHash_of_lookup (h2 (2 ^ 32) (by omega))]
  show (0 + 1) % 2 ^ 32 = (2 ^ 32 + 1) % 2 ^ 32
  omega

/-- the terms 1, 2 and 3 are hashed in the order 2, 1, 3: 3 > 1 > 2 -/
example : (exec St.init [.sym CONST 1, .sym CONST 2, .sym CONST 3]).map (fun x =>
    let r1 := x.1.cmp 2 1
    let r2 := r1.1.cmp 1 2
    let r3 := r2.1.cmp 3 1
    let r4 := r3.1.cmp 3 2
    (r1.2, r2.2, r3.2, r4.2)) = some (false, true, true, true) := by decide

end Ethos.Props
