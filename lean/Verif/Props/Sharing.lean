import Verif.Lemmas.Sharing
import Verif.Props.Print
/-
C75: what is written when a term is printed with definitions.
-/
namespace Ethos.Props
open Ethos Spec Kind

variable {env : PrintEnv}

theorem references_worth (i : Nat) (p : List (List Piece) × List Piece) :
    references i p = (p.1.map (worth 0 fun j => if j = i then 1 else 0)).sum + worth 0 (fun j => if j = i then 1 else 0) p.2 := by
  have : ∀ d : List Piece, d.count (.ref i) = worth 0 (fun j => if j = i then 1 else 0) d := by
    intro d
    induction d with
    | nil => rfl
    | cons x d ih =>
      rw [List.count_cons, ih]
      cases x with
      | text s => simp [worth]
      | ref j =>
        by_cases h : j = i
        · simp [worth, h]; omega
        · simp [worth, h]
  rw [references, this, List.map_congr_left fun d _ => this d]

theorem amount_worth (p : List (List Piece) × List Piece) : amount p = (p.1.map (worth 1 fun _ => 1)).sum + worth 1 (fun _ => 1) p.2 := by
  have : ∀ d : List Piece, d.length = worth 1 (fun _ => 1) d := by
    intro d
    induction d with
    | nil => rfl
    | cons x d ih =>
      rw [List.length_cons, ih]
      cases x <;> (simp [worth]; omega)
  rw [amount, this, List.map_congr_left fun d _ => this d]

theorem lookup_letBinding {ll : List Term} (hn : ll.Nodup) {i : Nat} {t c : Term} (h : ll[i]? = some t) : (letBinding ll).lookup c = some i ↔ c = t := by
  constructor
  · intro g
    obtain ⟨j, hj, g⟩ := lookup_zipIdx g
    have : i = j := by omega
    rw [this] at h
    rw [h] at g
    exact (Option.some.inj g).symm
  · rintro rfl
    cases g : (letBinding ll).lookup c with
    | none => exact absurd (List.mem_of_getElem? h) (lookup_zipIdx_none.1 g)
    | some j =>
      obtain ⟨k, hk, g⟩ := lookup_zipIdx g
      rw [Nat.zero_add] at hk
      subst hk
      rw [(List.getElem?_inj (List.getElem?_eq_some_iff.1 g).1 hn).1 (g.trans h.symm)]

theorem ownWorth_ref {ll : List Term} (hn : ll.Nodup) {i : Nat} {t : Term} (h : ll[i]? = some t) (u : Term) :
    ownWorth env ll 0 (fun j => if j = i then 1 else 0) u = (parts env u).count t := by
  rw [ownWorth, Nat.zero_mul, Nat.zero_add, ← sum_indicator]
  refine sum_congr' fun c _ => ?_
  by_cases hi : Inline env ll c
  · have : c ≠ t := fun g => hi.2 (g ▸ List.mem_of_getElem? h)
    rw [if_pos hi, if_neg this]
  · rw [if_neg hi]
    cases hl : (letBinding ll).lookup c with
    | none =>
      have : c ≠ t := fun g => by rw [(lookup_letBinding hn h).2 g] at hl; cases hl
      simp [this]
    | some j =>
      by_cases hj : j = i
      · subst hj
        simp [(lookup_letBinding hn h).1 hl]
      · have : c ≠ t := fun g => by
          rw [(lookup_letBinding hn h).2 g] at hl
          exact hj (Option.some.inj hl).symm
        simp [hj, this]

theorem ownWorth_share {ll : List Term} (u : Term) (hu : parts env u ≠ []) : ownWorth env ll 1 (fun _ => 1) u = share env ll u := by
  rw [ownWorth, share, if_neg hu, Nat.one_mul]
  congr 1
  have : ∀ l : List Term, (l.filter fun c => decide (parts env c = [] ∨ c ∈ ll)).length = (l.map fun c => if parts env c = [] ∨ c ∈ ll then 1 else 0).sum := by
    intro l
    induction l with
    | nil => rfl
    | cons c l ih =>
      by_cases h : parts env c = [] ∨ c ∈ ll
      · rw [List.filter_cons_of_pos (by simpa using h), List.length_cons, ih, List.map_cons, List.sum_cons, if_pos h]; omega
      · rw [List.filter_cons_of_neg (by simpa using h), ih, List.map_cons, List.sum_cons, if_neg h]; omega
  rw [this]
  refine sum_congr' fun c _ => ?_
  by_cases hi : Inline env ll c
  · have : ¬ (parts env c = [] ∨ c ∈ ll) := fun h => h.elim hi.1 hi.2
    rw [if_pos hi, if_neg this]
  · have : parts env c = [] ∨ c ∈ ll := by
      by_cases h : parts env c = []
      · exact .inl h
      · exact .inr (Classical.not_not.1 fun g => hi ⟨h, g⟩)
    rw [if_neg hi, if_pos this]
    split <;> rfl

theorem places_le {D : List Term} {u t : Term} (hu : u ∈ D) : (parts env u).count t ≤ places env D t := sum_mem (List.mem_map_of_mem hu)

/-- if only `u` has `t` as a part, and in one place -/
theorem sum_single {D R : List Term} {u t : Term} (hu : u ∈ D) (hc : t ∈ parts env u) (hp : places env D t ≤ 1) (hR : ∀ w ∈ R, w ∈ D) :
    (R.map fun w => (parts env w).count t).sum = R.count u := by
  rw [← sum_indicator]
  refine sum_congr' fun w hw => ?_
  have h1 : 1 ≤ (parts env u).count t := List.one_le_count_iff.2 hc
  by_cases h : w = u
  · subst h
    have := places_le (env := env) (t := t) hu
    rw [if_pos rfl]; omega
  · rw [if_neg h]
    -- both would be counted
    have h2 : (parts env w).count t + (parts env u).count t ≤ places env D t := by
      have hperm := List.perm_cons_erase hu
      have hw' : w ∈ D.erase u := (List.mem_erase_of_ne h).2 (hR w hw)
      have := sum_perm (fun v => (parts env v).count t) hperm
      rw [List.map_cons, List.sum_cons] at this
      have hle := sum_mem (List.mem_map_of_mem (f := fun v => (parts env v).count t) hw')
      show _ ≤ (D.map fun v => (parts env v).count t).sum
      omega
    omega

/-- what is printed with the definitions, of which terms there are definitions, and how the terms are distributed on them -/
theorem printed (hw : Printable env) (e : Term) : ∃ n ll V, ll.Nodup ∧ V.Nodup ∧ (∀ t, t ∈ V ↔ Within env e t ∧ parts env t ≠ []) ∧
    (∀ t, t ∈ ll ↔ parts env t ≠ [] ∧ 1 < places env V t) ∧ (∃ llv, (∃ p, ll = llv.filter p) ∧ llv.Nodup ∧
      ∀ a x b, llv = a ++ x :: b → ∀ c ∈ printChildren env x, printChildren env c ≠ [] → c ∈ a) ∧
    (parts env e ≠ [] → (ll.flatMap (region hw ll) ++ region hw ll e).Perm V) ∧ e ∉ ll ∧
    ∀ f, n ≤ f → printTerm env true f e = .ok (ll.map fun l => pieces hw ((letBinding ll).filter (·.1 ≠ l)) l, pieces hw (letBinding ll) e) := by
  have H0 : LetInv hw [e] [] [] [] := ⟨by simp, by simp, by simp, by simp, by simp⟩
  obtain ⟨r, vd, h1, h2, h3⟩ := letLoop_done hw _ [e] [] [] [] (Nat.le_refl _) H0 (by simp)
  obtain ⟨V, hV⟩ := letLoop_counts (env := env) (e := e) _ [e] [] [] [] r (by simp) (.init e) (h1 _ (Nat.le_refl _))
  have hmem : ∀ t, t ∈ V ↔ Within env e t ∧ parts env t ≠ [] := by
    intro t
    constructor
    · exact fun h => ⟨hV.within.1 t h, hV.node t h⟩
    · rintro ⟨h, hne⟩
      cases h with
      | self => simpa using hV.start hne
      | @part u c hu hc =>
        have : ∀ u, Within env e u → parts env u ≠ [] → u ∈ V := by
          intro u hu
          induction hu with
          | self => intro h; simpa using hV.start h
          | @part u c hu hc ih =>
            intro h
            simpa using hV.closed u (ih (fun g => by rw [g] at hc; cases hc)) c hc h
        simpa using hV.closed u (this u hu (fun g => by rw [g] at hc; cases hc)) t hc hne
  have hroot := places_root hw hV.within.1
  have hcount : ∀ t, parts env t ≠ [] → counted r.2 t = places env V t + if t = e then 1 else 0 := by
    intro t ht
    simpa using hV.count t ht
  have hll : ∀ t, t ∈ keepShared r.1 r.2 ↔ parts env t ≠ [] ∧ 1 < places env V t := by
    intro t
    rw [keepShared, List.mem_filter, decide_eq_true_iff]
    constructor
    · rintro ⟨h4, h5⟩
      have hp : parts env t ≠ [] := by rw [parts_eq]; exact h3 t (h2.done t h4)
      refine ⟨hp, ?_⟩
      have : counted r.2 t > 1 := h5
      rw [hcount t hp] at this
      by_cases he : t = e
      · subst he; rw [hroot] at this; simp at this
      · simpa [he] using this
    · rintro ⟨hp, h5⟩
      have : counted r.2 t > 1 := by rw [hcount t hp]; omega
      exact ⟨(hV.listed t).2 (by omega), this⟩
  have hnd : (keepShared r.1 r.2).Nodup := h2.nodup.sublist List.filter_sublist
  have hne : e ∉ keepShared r.1 r.2 := by
    intro h
    have := ((hll e).1 h).2
    rw [hroot] at this
    omega
  obtain ⟨n2, h4⟩ := printBindings_done hw (letBinding (keepShared r.1 r.2)) (keepShared r.1 r.2)
  obtain ⟨n3, h5⟩ := printLoop_done hw (letBinding (keepShared r.1 r.2)) e
  refine ⟨pot hw [] [e] + n2 + n3, keepShared r.1 r.2, V, hnd, hV.nodup, hmem, hll, ⟨r.1, ⟨_, rfl⟩, h2.nodup, h2.order⟩, ?_, hne, ?_⟩
  · intro he
    generalize hL : keepShared r.1 r.2 = ll at hll hnd hne
    have hin : ∀ w ∈ ll.flatMap (region hw ll) ++ region hw ll e, w ∈ V := by
      intro w hw'
      rw [hmem]
      rcases List.mem_append.1 hw' with h | h
      · obtain ⟨l, hl, h⟩ := List.mem_flatMap.1 h
        have hp := ((hll l).1 hl).1
        have hlw : Within env e l := by
          have : places env V l ≠ 0 := by have := ((hll l).1 hl).2; omega
          have : ∃ u ∈ V, l ∈ parts env u := by
            refine Classical.not_not.1 fun g => this (places_eq_zero fun u hu hp => g ⟨u, hu, hp⟩)
          obtain ⟨u, hu, hlu⟩ := this
          exact .part (hV.within.1 u hu) hlu
        exact ⟨hlw.trans (region_within hw l w h), region_parts hw l hp w h⟩
      · exact ⟨region_within hw e w h, region_parts hw e he w h⟩
    have hR : ∀ x, (ll.flatMap (region hw ll) ++ region hw ll e).count x = ll.count x + (if e = x then 1 else 0) +
        ((ll.flatMap (region hw ll) ++ region hw ll e).map fun u => if Inline env ll x then (parts env u).count x else 0).sum := by
      intro x
      rw [List.count_append, count_flatMap', List.map_append, List.sum_append, sum_flatMap, region_count hw x e]
      have : (ll.map fun l => (region hw ll l).count x).sum = ll.count x +
          (ll.map fun l => ((region hw ll l).map fun u => if Inline env ll x then (parts env u).count x else 0).sum).sum := by
        rw [← sum_indicator, ← sum_add]
        exact sum_congr' fun l _ => region_count hw x l
      rw [this]
      omega
    have key : ∀ x, Within env e x → parts env x ≠ [] → (ll.flatMap (region hw ll) ++ region hw ll e).count x = 1 := by
      intro x hx
      induction hx with
      | self =>
        intro _
        rw [hR, List.count_eq_zero.2 hne, if_pos rfl]
        have : ((ll.flatMap (region hw ll) ++ region hw ll e).map fun u => if Inline env ll e then (parts env u).count e else 0).sum = 0 := by
          have hi : Inline env ll e := ⟨he, hne⟩
          simp only [if_pos hi]
          refine places_eq_zero fun u hu hp => ?_
          have := places_le (env := env) (t := e) (hin u hu)
          have := List.one_le_count_iff.2 hp
          omega
        omega
      | @part u c hu hc ih =>
        intro hp
        have hpu : parts env u ≠ [] := fun g => by rw [g] at hc; cases hc
        have hec : e ≠ c := by
          rintro rfl
          have := places_le (env := env) (t := e) ((hmem u).2 ⟨hu, hpu⟩)
          have := List.one_le_count_iff.2 hc
          omega
        rw [hR, if_neg hec]
        by_cases hl : c ∈ ll
        · have hi : ¬ Inline env ll c := fun h => h.2 hl
          have hz : ∀ l : List Term, (l.map fun _ => 0).sum = 0 := by intro l; induction l <;> simp_all
          simp only [if_neg hi]
          rw [hz, hnd.count, if_pos hl]
        · have hi : Inline env ll c := ⟨hp, hl⟩
          simp only [if_pos hi]
          rw [List.count_eq_zero.2 hl, sum_single ((hmem u).2 ⟨hu, hpu⟩) hc ?_ hin, ih hpu]
          exact Nat.not_lt.1 fun g => hl ((hll c).2 ⟨hp, g⟩)
    rw [List.perm_iff_count]
    intro x
    rw [hV.nodup.count]
    by_cases hx : x ∈ V
    · rw [if_pos hx, key x ((hmem x).1 hx).1 ((hmem x).1 hx).2]
    · rw [if_neg hx]
      exact List.count_eq_zero.2 fun h => hx (hin x h)
  · intro f hf
    have hc : computeLetBinding env f e = .ok (keepShared r.1 r.2) := by rw [computeLetBinding, h1 f (by omega)]; rfl
    simp only [printTerm, if_true, hc, Run.bind, h4 f (by omega), h5 f (by omega), Run.map]

theorem sum_node_parts {D V : List Term} (hD : D.Nodup) (hV : V.Nodup) (h : ∀ t, t ∈ V ↔ t ∈ D ∧ parts env t ≠ []) (g : Term → Nat)
    (hg : ∀ t, parts env t = [] → g t = 0) : (V.map g).sum = (D.map g).sum := by
  have hp : V.Perm (D.filter fun t => decide (parts env t ≠ [])) :=
    perm_of_mem hV (hD.sublist List.filter_sublist) fun t => by rw [h, List.mem_filter, decide_eq_true_iff]
  rw [sum_perm g hp, sum_filter_zero]
  intro t _ ht
  exact hg t (by simpa using ht)

/-- The terms within a term can be listed. -/
theorem lists_exist (hw : Printable env) (e : Term) : ∃ D, Lists env e D := by
  obtain ⟨n, ll, V, _, hV, hm, _⟩ := printed hw e
  -- the terms with parts, their parts, and the term itself
  have key : ∀ l : List Term, ∃ D : List Term, D.Nodup ∧ ∀ t, t ∈ D ↔ t ∈ l := by
    intro l
    induction l with
    | nil => exact ⟨[], List.nodup_nil, by simp⟩
    | cons x l ih =>
      obtain ⟨D, h1, h2⟩ := ih
      by_cases hx : x ∈ D
      · exact ⟨D, h1, fun t => by rw [List.mem_cons, h2]; exact ⟨.inr, fun h => h.elim (fun g => by rw [g, ← h2]; exact hx) id⟩⟩
      · exact ⟨x :: D, List.nodup_cons.2 ⟨hx, h1⟩, fun t => by rw [List.mem_cons, List.mem_cons, h2]⟩
  obtain ⟨D, h1, h2⟩ := key (e :: V.flatMap (parts env))
  refine ⟨D, h1, fun t => ?_⟩
  rw [h2, List.mem_cons, List.mem_flatMap]
  constructor
  · rintro (rfl | ⟨u, hu, ht⟩)
    · exact .self
    · exact .part ((hm u).1 hu).1 ht
  · intro h
    cases h with
    | self => exact .inl rfl
    | @part u c hu hc => exact .inr ⟨u, (hm u).2 ⟨hu, fun g => by rw [g] at hc; cases hc⟩, hc⟩

/-- **C75** Let `D` list the terms within `e`.  Printing `e` with definitions defines exactly the terms that have parts and are part of the
terms of `D` in more than one place; the definition of each is what the term stands for, and is referred to once for each of these places; and what is
written in all is what the terms of `D` contribute, each of them once. -/
theorem C75_sharing (hw : Printable env) (e : Term) (D : List Term) (hD : Lists env e D) :
    ∃ n shared, shared.Nodup ∧ (∀ t, t ∈ shared ↔ parts env t ≠ [] ∧ 1 < places env D t) ∧
    ∀ f, n ≤ f → ∃ p vals, printTerm env true f e = .ok p ∧ p.1.length = shared.length ∧ expandDefs [] p.1 = some vals ∧
      (∀ i t, shared[i]? = some t → references i p = places env D t ∧
        ∃ g q, printTerm env false g t = .ok ([], q) ∧ vals[i]? = some (writePieces q)) ∧
      amount p = if parts env e = [] then 1 else (D.map (share env shared)).sum := by
  obtain ⟨n, ll, V, hnd, hVn, hm, hll, ⟨llv, ⟨p, hp⟩, hnv, ho⟩, hperm, hne, hpr⟩ := printed hw e
  have hVD : ∀ t, t ∈ V ↔ t ∈ D ∧ parts env t ≠ [] := fun t => by rw [hm, hD.mem]
  have hpl : ∀ t, places env V t = places env D t := fun t => sum_node_parts hD.nodup hVn hVD _ fun u hu => by rw [hu]; rfl
  refine ⟨n, ll, hnd, fun t => by rw [hll, hpl], fun f hf => ?_⟩
  have hparts : ∀ l ∈ ll, parts env l ≠ [] := fun l hl => ((hll l).1 hl).1
  have hexp := expandDefs_done hw hp hnv (fun u hu => by rw [← parts_eq]; exact hparts u hu) ho ll [] rfl
  -- the sum of what is written
  have htotal : parts env e ≠ [] → ∀ a b, ((ll.map fun l => pieces hw ((letBinding ll).filter (·.1 ≠ l)) l).map (worth a b)).sum +
      worth a b (pieces hw (letBinding ll) e) = (V.map (ownWorth env ll a b)).sum := by
    intro he a b
    rw [← sum_perm _ (hperm he), List.map_append, List.sum_append, sum_flatMap, worth_region hw e ⟨he, hne⟩, List.map_map]
    congr 1
    exact sum_congr' fun l hl => worth_definition hw l (hparts l hl)
  refine ⟨_, _, hpr f hf, by simp, hexp, ?_, ?_⟩
  · intro i t hi
    refine ⟨?_, ?_⟩
    · have hti := List.mem_of_getElem? hi
      have he : parts env e ≠ [] := by
        intro he
        have h1 := ((hll t).1 hti).2
        have : V = [] := by
          refine List.eq_nil_iff_forall_not_mem.2 fun u hu => ?_
          obtain ⟨h2, h3⟩ := (hm u).1 hu
          have : u = e := by
            clear hu h3
            induction h2 with
            | self => rfl
            | part _ hc ih => rw [ih, he] at hc; cases hc
          exact h3 (this ▸ he)
        rw [this] at h1
        cases h1
      rw [references_worth, htotal he, ← hpl, places]
      exact sum_congr' fun u _ => ownWorth_ref hnd hi u
    · obtain ⟨k, hk⟩ := printLoop_done hw [] t
      refine ⟨k, pieces hw [] t, by simp [printTerm, hk k (Nat.le_refl _), Run.map], ?_⟩
      rw [List.getElem?_map, hi]
      rfl
  · rw [amount_worth]
    by_cases he : parts env e = []
    · have hl : ll = [] := by
        refine List.eq_nil_iff_forall_not_mem.2 fun t ht => ?_
        have h1 := ((hll t).1 ht).2
        have : places env V t = 0 := by
          refine places_eq_zero fun u hu => ?_
          obtain ⟨h2, h3⟩ := (hm u).1 hu
          have : u = e := by
            clear hu h3
            induction h2 with
            | self => rfl
            | part _ hc ih => rw [ih, he] at hc; cases hc
          exact absurd (this ▸ he) h3
        omega
      rw [if_pos he, hl]
      rw [pieces_leaf hw (by rfl) (by rw [← parts_eq]; exact he)]
      rfl
    · rw [if_neg he, htotal he]
      rw [sum_congr' fun u hu => ownWorth_share u ((hm u).1 hu).2]
      exact sum_node_parts hD.nodup hVn hVD _ fun u hu => by rw [share, if_pos hu]

/-! ### The term `(g x x (f a a))` with the variable `x` of type `(f a a)` -/

def shareTerms : List Term :=
  [exPrintTerm, .node APPLY [.node APPLY [.sym CONST 1, .sym VARIABLE 3], .sym VARIABLE 3], .node APPLY [.sym CONST 1, .sym VARIABLE 3],
   .sym CONST 1, .sym VARIABLE 3, exPrintEnv.varType 0, .node APPLY [.sym CONST 0, .sym CONST 2], .sym CONST 0, .sym CONST 2]

theorem shareTerms_lists : Lists exPrintEnv exPrintTerm shareTerms where
  nodup := by decide +kernel
  mem := by
    have hclosed : ∀ t ∈ shareTerms, ∀ c ∈ parts exPrintEnv t, c ∈ shareTerms := by decide +kernel
    intro t
    constructor
    · -- each is reached from an earlier one
      have hfrom : ∀ i : Fin shareTerms.length, i.1 = 0 ∨ ∃ j : Fin shareTerms.length, j < i ∧ shareTerms[i] ∈ parts exPrintEnv shareTerms[j] := by decide +kernel
      have : ∀ n, ∀ h : n < shareTerms.length, Within exPrintEnv exPrintTerm shareTerms[n] := by
        intro n
        induction n using Nat.strongRecOn with
        | _ n ih =>
        intro h
        rcases hfrom ⟨n, h⟩ with h0 | ⟨j, hj, hm⟩
        · have h0 : n = 0 := h0
          subst h0
          exact .self
        · exact .part (ih j.1 hj j.2) hm
      intro ht
      obtain ⟨n, h, rfl⟩ := List.getElem_of_mem ht
      exact this n h
    · intro h
      induction h with
      | self => decide +kernel
      | part _ hc ih => exact hclosed _ ih _ hc

-- there are two shared terms, `x` in two places and `(f a a)` in two places, and 25 pieces are written
example : ∃ n shared, shared.Nodup ∧ (∀ t, t ∈ shared ↔ parts exPrintEnv t ≠ [] ∧ 1 < places exPrintEnv shareTerms t) ∧
    ∀ f, n ≤ f → ∃ p vals, printTerm exPrintEnv true f exPrintTerm = .ok p ∧ p.1.length = shared.length ∧ expandDefs [] p.1 = some vals ∧
      (∀ i t, shared[i]? = some t → references i p = places exPrintEnv shareTerms t ∧
        ∃ g q, printTerm exPrintEnv false g t = .ok ([], q) ∧ vals[i]? = some (writePieces q)) ∧
      amount p = if parts exPrintEnv exPrintTerm = [] then 1 else (shareTerms.map (share exPrintEnv shared)).sum :=
  C75_sharing exPrintEnv_printable exPrintTerm shareTerms shareTerms_lists

example : shareTerms.filter (fun t => decide (parts exPrintEnv t ≠ [] ∧ 1 < places exPrintEnv shareTerms t)) = [.sym VARIABLE 3, exPrintEnv.varType 0] ∧
    places exPrintEnv shareTerms (.sym VARIABLE 3) = 2 ∧ places exPrintEnv shareTerms (exPrintEnv.varType 0) = 2 ∧
    (shareTerms.map (share exPrintEnv [exPrintEnv.varType 0, .sym VARIABLE 3])).sum = 25 := by decide +kernel

-- a symbol has no parts
example : Lists exPrintEnv (.sym CONST 0) [.sym CONST 0] where
  nodup := by simp
  mem := by
    intro t
    rw [List.mem_singleton]
    constructor
    · rintro rfl; exact .self
    · intro h
      induction h with
      | self => rfl
      | part _ hc ih => subst ih; cases hc

end Ethos.Props
