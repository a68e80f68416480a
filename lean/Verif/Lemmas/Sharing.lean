import Verif.Lemmas.Print
import Verif.Spec.Sharing
/-
Lemmas about what is shared when a term is printed.
-/
namespace Ethos.Props
open Ethos Spec Kind

variable {env : PrintEnv}

theorem parts_eq (t : Term) : parts env t = printChildren env t := by
  cases t with
  | node k cs => rfl
  | lit l => rfl
  | sym k i => cases k <;> rfl

/-! ### The counts of the first loop -/

def counted (l : List (Term × Nat)) (t : Term) : Nat := (l.lookup t).getD 0

theorem counted_increment (t u : Term) : ∀ l, counted (increment t l) u = counted l u + if u = t then 1 else 0
  | [] => by
    by_cases h : u = t
    · simp [increment, counted, List.lookup, h]
    · have : (u == t) = false := by simpa using h
      simp [increment, counted, List.lookup, h, this]
  | (v, n) :: l => by
    have ih := counted_increment t u l
    unfold increment
    by_cases hv : v = t
    · rw [if_pos hv]
      subst hv
      by_cases hu : u = v
      · simp [counted, List.lookup, hu]
      · have : (u == v) = false := by simpa using hu
        simp [counted, List.lookup, this, hu]
    · rw [if_neg hv]
      by_cases hu : u = v
      · have : u ≠ t := fun h => hv (hu ▸ h)
        simp [counted, List.lookup, hu, hv]
      · have hb : (u == v) = false := by simpa using hu
        simp only [counted, List.lookup, hb] at ih ⊢
        exact ih

/-- the condition on the lists of the first loop that concerns the counts -/
structure CountInv (env : PrintEnv) (e : Term) (visit visited llv : List Term) (lcount : List (Term × Nat)) : Prop where
  count : ∀ t, parts env t ≠ [] → counted lcount t + visit.count t = places env visited t + if t = e then 1 else 0
  nodup : visited.Nodup
  node : ∀ v ∈ visited, parts env v ≠ []
  within : (∀ v ∈ visited, Within env e v) ∧ ∀ v ∈ visit, Within env e v
  start : parts env e ≠ [] → e ∈ visit ∨ e ∈ visited
  closed : ∀ v ∈ visited, ∀ c ∈ parts env v, parts env c ≠ [] → c ∈ visit ∨ c ∈ visited
  listed : ∀ v, v ∈ llv ↔ 0 < counted lcount v

theorem CountInv.init (e : Term) : CountInv env e [e] [] [] [] where
  count := by
    intro t _
    by_cases h : t = e
    · simp [counted, places, h]
    · have : ¬ e = t := fun g => h g.symm
      simp [counted, places, h, List.count_cons, this]
  nodup := List.nodup_nil
  node := by simp
  within := ⟨by simp, by simp; exact .self⟩
  start := fun _ => .inl (by simp)
  closed := by simp
  listed := by simp [counted]

theorem CountInv.leaf {e cur visit visited llv lcount} (H : CountInv env e (cur :: visit) visited llv lcount) (hc : parts env cur = []) :
    CountInv env e visit visited llv lcount where
  count := by
    intro t ht
    have := H.count t ht
    have hne : ¬ cur = t := fun h => ht (h ▸ hc)
    simpa [List.count_cons, hne] using this
  nodup := H.nodup
  node := H.node
  within := ⟨H.within.1, fun v hv => H.within.2 v (List.mem_cons_of_mem _ hv)⟩
  start := by
    intro h
    rcases H.start h with g | g
    · rcases List.mem_cons.1 g with rfl | g
      · exact absurd hc h
      · exact .inl g
    · exact .inr g
  closed := by
    intro v hv c hcc hne
    rcases H.closed v hv c hcc hne with g | g
    · rcases List.mem_cons.1 g with rfl | g
      · exact absurd hc hne
      · exact .inl g
    · exact .inr g
  listed := H.listed

theorem CountInv.visit {e cur visit visited llv lcount} (H : CountInv env e (cur :: visit) visited llv lcount) (hc : parts env cur ≠ []) (hv : cur ∉ visited) :
    CountInv env e ((parts env cur).reverse ++ cur :: visit) (cur :: visited) llv lcount where
  count := by
    intro t ht
    have := H.count t ht
    simp only [places, List.map_cons, List.sum_cons, List.count_append, List.count_reverse] at this ⊢
    omega
  nodup := List.nodup_cons.2 ⟨hv, H.nodup⟩
  node := by
    intro v h
    rcases List.mem_cons.1 h with rfl | h
    · exact hc
    · exact H.node v h
  within := by
    have hcur := H.within.2 cur (List.mem_cons_self ..)
    constructor
    · intro v h
      rcases List.mem_cons.1 h with rfl | h
      · exact hcur
      · exact H.within.1 v h
    · intro v h
      rcases List.mem_append.1 h with h | h
      · exact .part hcur (by simpa using h)
      · exact H.within.2 v h
  start := by
    intro h
    rcases H.start h with g | g
    · exact .inl (List.mem_append_right _ g)
    · exact .inr (List.mem_cons_of_mem _ g)
  closed := by
    intro v h c hcc hne
    rcases List.mem_cons.1 h with rfl | h
    · exact .inl (List.mem_append_left _ (by simpa using hcc))
    · rcases H.closed v h c hcc hne with g | g
      · exact .inl (List.mem_append_right _ g)
      · exact .inr (List.mem_cons_of_mem _ g)
  listed := H.listed

theorem CountInv.pop {e cur visit visited llv lcount} (H : CountInv env e (cur :: visit) visited llv lcount) (hv : cur ∈ visited)
    (hl : lcount.lookup cur = none ↔ cur ∉ llv) :
    CountInv env e visit visited (if lcount.lookup cur = none then llv ++ [cur] else llv) (increment cur lcount) where
  count := by
    intro t ht
    have := H.count t ht
    rw [counted_increment]
    by_cases h : t = cur
    · subst h; simp at this ⊢; omega
    · have h' : ¬ cur = t := fun g => h g.symm
      simp [h] at this ⊢
      simpa [List.count_cons, h'] using this
  nodup := H.nodup
  node := H.node
  within := ⟨H.within.1, fun v h => H.within.2 v (List.mem_cons_of_mem _ h)⟩
  start := by
    intro h
    rcases H.start h with g | g
    · rcases List.mem_cons.1 g with rfl | g
      · exact .inr hv
      · exact .inl g
    · exact .inr g
  closed := by
    intro v h c hcc hne
    rcases H.closed v h c hcc hne with g | g
    · rcases List.mem_cons.1 g with rfl | g
      · exact .inr hv
      · exact .inl g
    · exact .inr g
  listed := by
    intro v
    rw [counted_increment]
    by_cases h : v = cur
    · subst h
      simp only [if_true]
      constructor
      · intro _; omega
      · intro _
        by_cases g : lcount.lookup v = none
        · simp [g]
        · rw [if_neg g]; exact Decidable.not_not.1 fun k => g (hl.2 k)
    · simp only [h, if_false, Nat.add_zero]
      rw [← H.listed v]
      by_cases g : lcount.lookup cur = none
      · simp [g, h]
      · rw [if_neg g]

theorem letLoop_counts {e : Term} : ∀ (f : Nat) (visit visited llv : List Term) (lcount : List (Term × Nat)) (r),
    (∀ v, lcount.lookup v = none ↔ v ∉ llv) →
    CountInv env e visit visited llv lcount → letLoop env f visit visited llv lcount = .ok r → ∃ visited', CountInv env e [] visited' r.1 r.2
  | f, [], visited, llv, lcount, r, _, H, h => by
    have : r = (llv, lcount) := by cases f <;> (simp only [letLoop, Run.ok.injEq] at h; exact h.symm)
    subst this
    exact ⟨visited, H⟩
  | 0, _ :: _, _, _, _, _, _, _, h => by simp [letLoop] at h
  | f + 1, cur :: visit, visited, llv, lcount, r, hl, H, h => by
    simp only [letLoop] at h
    by_cases hc : printChildren env cur = []
    · rw [if_pos hc] at h
      exact letLoop_counts f _ _ _ _ _ hl (H.leaf (by rw [parts_eq]; exact hc)) h
    · rw [if_neg hc] at h
      by_cases hv : cur ∉ visited
      · rw [if_pos hv] at h
        have := H.visit (by rw [parts_eq]; exact hc) hv
        rw [parts_eq] at this
        exact letLoop_counts f _ _ _ _ _ hl this h
      · rw [if_neg hv] at h
        refine letLoop_counts f _ _ _ _ _ ?_ (H.pop (Decidable.not_not.1 hv) (hl cur)) h
        intro v
        rw [lookup_increment, hl v]
        by_cases g : lcount.lookup cur = none
        · rw [if_pos g]
          simp only [List.mem_append, List.mem_singleton]
          constructor
          · rintro ⟨a, b⟩ (k | k)
            · exact b k
            · exact a k
          · exact fun k => ⟨fun a => k (.inr a), fun a => k (.inl a)⟩
        · rw [if_neg g]
          constructor
          · exact fun k => k.2
          · intro k
            refine ⟨?_, k⟩
            rintro rfl
            exact g ((hl v).2 k)

/-! ### Nothing is within a part of itself -/

theorem within_weight (hw : Printable env) {e t : Term} (h : Within env e t) : weight hw t ≤ weight hw e := by
  induction h with
  | self => exact Nat.le_refl _
  | part _ hc ih => exact Nat.le_of_lt (Nat.lt_of_lt_of_le (weight_child hw (by rwa [parts_eq] at hc)) ih)

theorem _root_.Ethos.Spec.Within.trans {e t u : Term} (h : Within env e t) (g : Within env t u) : Within env e u := by
  induction g with
  | self => exact h
  | part _ hc ih => exact .part ih hc

theorem places_eq_zero {D : List Term} {t : Term} (h : ∀ u ∈ D, t ∉ parts env u) : places env D t = 0 := by
  induction D with
  | nil => rfl
  | cons u D ih =>
    have h1 := h u (List.mem_cons_self ..)
    have h2 := ih fun v hv => h v (List.mem_cons_of_mem _ hv)
    simp only [places, List.map_cons, List.sum_cons] at h2 ⊢
    rw [h2, List.count_eq_zero.2 h1]

theorem places_root (hw : Printable env) {e : Term} {D : List Term} (h : ∀ u ∈ D, Within env e u) : places env D e = 0 := by
  refine places_eq_zero fun u hu hp => ?_
  have h1 := within_weight hw (h u hu)
  have h2 := weight_child hw (by rwa [parts_eq] at hp)
  omega

theorem sum_perm {α : Type} (f : α → Nat) {a b : List α} (h : a.Perm b) : (a.map f).sum = (b.map f).sum := (h.map f).sum_nat

theorem sum_filter_zero {α : Type} (f : α → Nat) (p : α → Bool) (l : List α) (h : ∀ x ∈ l, p x = false → f x = 0) : ((l.filter p).map f).sum = (l.map f).sum := by
  induction l with
  | nil => rfl
  | cons x l ih =>
    have ih := ih fun y hy => h y (List.mem_cons_of_mem _ hy)
    by_cases hx : p x = true
    · rw [List.filter_cons_of_pos hx]; simp [ih]
    · have := h x (List.mem_cons_self ..) (by simpa using hx)
      rw [List.filter_cons_of_neg hx]; simp [ih, this]

/-- two lists without repetitions and with the same members are rearrangements of each other -/
theorem perm_of_mem {a b : List Term} (ha : a.Nodup) (hb : b.Nodup) (h : ∀ t, t ∈ a ↔ t ∈ b) : a.Perm b := by
  rw [List.perm_iff_count]
  intro t
  rw [ha.count, hb.count]
  simp only [h]

/-! ### The terms written with a definition or the body -/

/-- a term that is written where it occurs -/
def Inline (env : PrintEnv) (ll : List Term) (c : Term) : Prop := parts env c ≠ [] ∧ c ∉ ll

instance (ll : List Term) (c : Term) : Decidable (Inline env ll c) := inferInstanceAs (Decidable (_ ∧ _))

/-- the terms with parts that are written together with `t` -/
noncomputable def region (hw : Printable env) (ll : List Term) : Term → List Term :=
  WellFounded.fix (r := fun c t => c ∈ printChildren env t) hw fun t rec =>
    t :: (printChildren env t).attach.flatMap fun c => if Inline env ll c.1 then rec c.1 c.2 else []

theorem region_eq (hw : Printable env) (ll : List Term) (t : Term) :
    region hw ll t = t :: (parts env t).flatMap fun c => if Inline env ll c then region hw ll c else [] := by
  have e : region hw ll t = t :: (printChildren env t).attach.flatMap fun c => if Inline env ll c.1 then region hw ll c.1 else [] :=
    WellFounded.fix_eq (r := fun c t => c ∈ printChildren env t) hw _ t
  rw [e, flatMap_attach' (printChildren env t) (fun c => if Inline env ll c then region hw ll c else []), parts_eq]

theorem region_within (hw : Printable env) {ll : List Term} (t : Term) : ∀ u ∈ region hw ll t, Within env t u := by
  induction t using WellFounded.induction hw with
  | _ t ih =>
  intro u hu
  rw [region_eq] at hu
  rcases List.mem_cons.1 hu with rfl | hu
  · exact .self
  · obtain ⟨c, hc, hu⟩ := List.mem_flatMap.1 hu
    split at hu
    · exact Spec.Within.trans (.part .self hc) (ih c (by rwa [parts_eq] at hc) u hu)
    · cases hu

theorem region_parts (hw : Printable env) {ll : List Term} (t : Term) (ht : parts env t ≠ []) : ∀ u ∈ region hw ll t, parts env u ≠ [] := by
  induction t using WellFounded.induction hw with
  | _ t ih =>
  intro u hu
  rw [region_eq] at hu
  rcases List.mem_cons.1 hu with rfl | hu
  · exact ht
  · obtain ⟨c, hc, hu⟩ := List.mem_flatMap.1 hu
    split at hu
    · rename_i hi
      exact ih c (by rwa [parts_eq] at hc) hi.1 u hu
    · cases hu

theorem sum_flatMap {α β : Type} (f : β → Nat) (g : α → List β) : ∀ l : List α, ((l.flatMap g).map f).sum = (l.map fun x => ((g x).map f).sum).sum
  | [] => rfl
  | x :: l => by simp [sum_flatMap f g l]

theorem count_flatMap' {α : Type} (x : Term) (g : α → List Term) : ∀ l : List α, (l.flatMap g).count x = (l.map fun a => (g a).count x).sum
  | [] => rfl
  | a :: l => by simp [count_flatMap' x g l]

theorem sum_add {α : Type} (f g : α → Nat) : ∀ l : List α, (l.map fun x => f x + g x).sum = (l.map f).sum + (l.map g).sum
  | [] => rfl
  | x :: l => by simp [sum_add f g l]; omega

theorem sum_congr' {α : Type} {f g : α → Nat} {l : List α} (h : ∀ x ∈ l, f x = g x) : (l.map f).sum = (l.map g).sum := by
  rw [List.map_congr_left h]

theorem sum_indicator (x : Term) : ∀ l : List Term, (l.map fun c => if c = x then 1 else 0).sum = l.count x
  | [] => rfl
  | c :: l => by
    rw [List.map_cons, List.sum_cons, sum_indicator x l, List.count_cons]
    by_cases h : c = x
    · simp [h]; omega
    · simp [h]

/-- how often a term is in a region: once for its start, and once for every place in it where it is not referred to -/
theorem region_count (hw : Printable env) {ll : List Term} (x t : Term) :
    (region hw ll t).count x = (if t = x then 1 else 0) + ((region hw ll t).map fun u => if Inline env ll x then (parts env u).count x else 0).sum := by
  induction t using WellFounded.induction hw with
  | _ t ih =>
  have h1 : (region hw ll t).count x = (if t = x then 1 else 0) + ((parts env t).map fun c => if Inline env ll c then (region hw ll c).count x else 0).sum := by
    rw [region_eq, List.count_cons, count_flatMap']
    have : (if (t == x) = true then 1 else 0) = (if t = x then 1 else 0) := by simp
    rw [this, Nat.add_comm]
    congr 1
    refine sum_congr' fun c _ => ?_
    split <;> rfl
  have h2 : ((region hw ll t).map fun u => if Inline env ll x then (parts env u).count x else 0).sum =
      (if Inline env ll x then (parts env t).count x else 0) +
      ((parts env t).map fun c => if Inline env ll c then ((region hw ll c).map fun u => if Inline env ll x then (parts env u).count x else 0).sum else 0).sum := by
    rw [region_eq, List.map_cons, List.sum_cons, sum_flatMap]
    congr 1
    refine sum_congr' fun c _ => ?_
    by_cases hi : Inline env ll c
    · rw [if_pos hi, if_pos hi]
    · rw [if_neg hi, if_neg hi]; rfl
  rw [h1, h2, ← Nat.add_assoc]
  rw [Nat.add_assoc]
  congr 1
  have h3 : ((parts env t).map fun c => if Inline env ll c then (region hw ll c).count x else 0).sum =
      ((parts env t).map fun c => (if Inline env ll x then (if c = x then 1 else 0) else 0) +
        (if Inline env ll c then ((region hw ll c).map fun u => if Inline env ll x then (parts env u).count x else 0).sum else 0)).sum := by
    refine sum_congr' fun c hc => ?_
    by_cases hi : Inline env ll c
    · rw [if_pos hi, if_pos hi, ih c (by rwa [parts_eq] at hc)]
      congr 1
      by_cases hx : c = x
      · subst hx; simp [hi]
      · simp [hx]
    · rw [if_neg hi, if_neg hi]
      by_cases hx : c = x
      · subst hx; simp [hi]
      · simp [hx]
  rw [h3, sum_add]
  congr 1
  by_cases hi : Inline env ll x
  · simp only [if_pos hi]; exact sum_indicator x _
  · simp only [if_neg hi]
    have : ∀ l : List Term, (l.map fun _ => 0).sum = 0 := by intro l; induction l <;> simp_all
    exact this _

/-- the sum of numbers given to the pieces -/
def worth (a : Nat) (b : Nat → Nat) (ps : List Piece) : Nat := (ps.map fun p => match p with | .text _ => a | .ref j => b j).sum

theorem worth_append (a b) (x y : List Piece) : worth a b (x ++ y) = worth a b x + worth a b y := by simp [worth]

/-- the part of it that a term contributes -/
noncomputable def ownWorth (env : PrintEnv) (ll : List Term) (a : Nat) (b : Nat → Nat) (t : Term) : Nat :=
  a * ((parts env t).length + 1) + ((parts env t).map fun c => if Inline env ll c then 0 else (match (letBinding ll).lookup c with | some j => b j | none => a)).sum

theorem lookup_zipIdx_none {u : Term} : ∀ {l : List Term} {n}, (l.zipIdx n).lookup u = none ↔ u ∉ l
  | [], n => by simp [List.lookup]
  | v :: l, n => by
    rw [List.zipIdx_cons]
    by_cases hu : u = v
    · subst hu; simp [List.lookup]
    · have : (u == v) = false := by simpa using hu
      simp only [List.lookup, this, List.mem_cons, hu, false_or]
      exact lookup_zipIdx_none

/-- a node is worth what it contributes and what its parts written with it are worth -/
theorem worth_node (hw : Printable env) {ll : List Term} {a b} {lb t} (h : lb.lookup t = none) (ht : parts env t ≠ []) :
    worth a b (pieces hw lb t) = a * ((parts env t).length + 1) + ((parts env t).map fun c => worth a b (pieces hw lb c)).sum := by
  rw [parts_eq] at ht ⊢
  cases hc : printChildren env t with
  | nil => exact absurd hc ht
  | cons c cs =>
    rw [pieces_node hw h hc, worth_append, worth_append]
    have : ∀ cs : List Term, worth a b (cs.flatMap fun d => .text [32] :: pieces hw lb d) = a * cs.length + (cs.map fun c => worth a b (pieces hw lb c)).sum := by
      intro cs
      induction cs with
      | nil => rfl
      | cons d cs ih =>
        rw [List.flatMap_cons, worth_append, ih]
        have : worth a b (.text [32] :: pieces hw lb d) = a + worth a b (pieces hw lb d) := by simp [worth]
        rw [this]
        simp only [List.length_cons, List.map_cons, List.sum_cons, Nat.mul_add, Nat.mul_one]
        omega
    rw [this]
    have e1 : worth a b (.text (printOpen env t) :: pieces hw lb c) = a + worth a b (pieces hw lb c) := by simp [worth]
    have e2 : worth a b [.text [41]] = a := by simp [worth]
    rw [e1, e2]
    simp only [List.length_cons, List.map_cons, List.sum_cons, Nat.mul_add, Nat.mul_one]
    omega

/-- what is written for a term with parts is worth what the terms of its region contribute -/
theorem worth_region (hw : Printable env) {ll : List Term} {a b} (t : Term) (hi : Inline env ll t) :
    worth a b (pieces hw (letBinding ll) t) = ((region hw ll t).map (ownWorth env ll a b)).sum := by
  induction t using WellFounded.induction hw with
  | _ t ih =>
  have h0 : (letBinding ll).lookup t = none := lookup_zipIdx_none.2 hi.2
  rw [worth_node (ll := ll) hw h0 hi.1, region_eq, List.map_cons, List.sum_cons, sum_flatMap, ownWorth, Nat.add_assoc]
  congr 1
  rw [← sum_add]
  refine sum_congr' fun c hc => ?_
  rw [parts_eq] at hc
  by_cases hic : Inline env ll c
  · rw [if_pos hic, if_pos hic, Nat.zero_add]
    exact ih c hc hic
  · rw [if_neg hic, if_neg hic]
    simp only [List.map_nil, List.sum_nil, Nat.add_zero]
    cases hl : (letBinding ll).lookup c with
    | some j => rw [pieces_ref hw hl]; simp [worth]
    | none =>
      have hn : c ∉ ll := lookup_zipIdx_none.1 hl
      have hp : parts env c = [] := Classical.not_not.1 fun h => hic ⟨h, hn⟩
      rw [parts_eq] at hp
      rw [pieces_leaf hw hl hp]
      simp [worth]

theorem lookup_filter_ne {u l : Term} (h : u ≠ l) (lb : List (Term × Nat)) : (lb.filter (·.1 ≠ l)).lookup u = lb.lookup u := by
  induction lb with
  | nil => rfl
  | cons p lb ih =>
    obtain ⟨v, i⟩ := p
    by_cases hv : v = l
    · rw [List.filter_cons_of_neg (by simp [hv])]
      have : (u == v) = false := by rw [hv]; simpa using h
      simp only [List.lookup, this, ih]
    · rw [List.filter_cons_of_pos (by simp [hv])]
      by_cases hu : u = v
      · subst hu; simp [List.lookup]
      · have : (u == v) = false := by simpa using hu
        simp only [List.lookup, this, ih]

/-- the entry of a term does not matter within its parts -/
theorem pieces_filter (hw : Printable env) {lb : List (Term × Nat)} {l : Term} (t : Term) (h : weight hw t < weight hw l) :
    pieces hw (lb.filter (·.1 ≠ l)) t = pieces hw lb t := by
  induction t using WellFounded.induction hw with
  | _ t ih =>
  have hne : t ≠ l := fun g => by rw [g] at h; exact Nat.lt_irrefl _ h
  have hlook := lookup_filter_ne hne lb
  cases hl : lb.lookup t with
  | some i => rw [pieces_ref hw hl, pieces_ref hw (hlook.trans hl)]
  | none =>
    cases hc : printChildren env t with
    | nil => rw [pieces_leaf hw hl hc, pieces_leaf hw (hlook.trans hl) hc]
    | cons c cs =>
      rw [pieces_node hw hl hc, pieces_node hw (hlook.trans hl) hc]
      have hd : ∀ d ∈ printChildren env t, pieces hw (lb.filter (·.1 ≠ l)) d = pieces hw lb d := fun d hd =>
        ih d hd (Nat.lt_trans (weight_child hw hd) h)
      rw [hc] at hd
      rw [hd c (List.mem_cons_self ..)]
      have : (cs.flatMap fun d => Piece.text [32] :: pieces hw (lb.filter (·.1 ≠ l)) d) = cs.flatMap fun d => Piece.text [32] :: pieces hw lb d := by
        rw [List.flatMap, List.flatMap, List.map_congr_left fun d hd' => by rw [hd d (List.mem_cons_of_mem _ hd')]]
      rw [this]

/-- the same for what is written in a definition -/
theorem worth_definition (hw : Printable env) {ll : List Term} {a b} (l : Term) (hp : parts env l ≠ []) :
    worth a b (pieces hw ((letBinding ll).filter (·.1 ≠ l)) l) = ((region hw ll l).map (ownWorth env ll a b)).sum := by
  have h0 : ((letBinding ll).filter (·.1 ≠ l)).lookup l = none := by
    cases h : ((letBinding ll).filter (·.1 ≠ l)).lookup l with
    | none => rfl
    | some j => exact absurd rfl (lookup_filter h).1
  rw [worth_node (ll := ll) hw h0 hp, region_eq, List.map_cons, List.sum_cons, sum_flatMap, ownWorth, Nat.add_assoc]
  congr 1
  rw [← sum_add]
  refine sum_congr' fun c hc => ?_
  rw [parts_eq] at hc
  rw [pieces_filter hw c (weight_child hw hc)]
  by_cases hic : Inline env ll c
  · rw [if_pos hic, if_pos hic, Nat.zero_add]
    exact worth_region hw c hic
  · rw [if_neg hic, if_neg hic]
    simp only [List.map_nil, List.sum_nil, Nat.add_zero]
    cases hl : (letBinding ll).lookup c with
    | some j => rw [pieces_ref hw hl]; simp [worth]
    | none =>
      have hn : c ∉ ll := lookup_zipIdx_none.1 hl
      have hp : parts env c = [] := Classical.not_not.1 fun h => hic ⟨h, hn⟩
      rw [parts_eq] at hp
      rw [pieces_leaf hw hl hp]
      simp [worth]

end Ethos.Props
