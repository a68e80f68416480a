import Verif.Spec.Print
/-
Lemmas about printing: the loops as recursive functions, and the order of the shared terms.
-/
namespace Ethos.Props
open Ethos Spec Kind

variable {env : PrintEnv}

/-! ### The printing loop -/

/-- the pieces printed for a term, given those of the children -/
def piecesStep (env : PrintEnv) (lb : List (Term × Nat)) (t : Term) (rec : ∀ d, d ∈ printChildren env t → List Piece) : List Piece :=
  match lb.lookup t with
  | some i => [.ref i]
  | none =>
    match h : printChildren env t with
    | [] => [.text (printLeaf env t)]
    | c :: cs => .text (printOpen env t) :: rec c (by rw [h]; exact List.mem_cons_self ..) ++
        (cs.attach.flatMap fun d => .text [32] :: rec d.1 (by rw [h]; exact List.mem_cons_of_mem _ d.2)) ++ [.text [41]]

/-- the pieces printed for a term -/
noncomputable def pieces (hw : Printable env) (lb : List (Term × Nat)) : Term → List Piece :=
  WellFounded.fix (r := fun c t => c ∈ printChildren env t) hw (piecesStep env lb)

theorem pieces_eq (hw : Printable env) (lb : List (Term × Nat)) (t : Term) : pieces hw lb t = piecesStep env lb t fun d _ => pieces hw lb d :=
  WellFounded.fix_eq (r := fun c t => c ∈ printChildren env t) hw _ t

theorem flatMap_attach' {α β : Type} (l : List α) (f : α → List β) : (l.attach.flatMap fun d => f d.1) = l.flatMap f := by
  simp [List.flatMap, List.attach_map_val]

theorem pieces_ref (hw : Printable env) {lb t i} (h : lb.lookup t = some i) : pieces hw lb t = [.ref i] := by
  rw [pieces_eq, piecesStep, h]

theorem pieces_leaf (hw : Printable env) {lb t} (h : lb.lookup t = none) (hc : printChildren env t = []) : pieces hw lb t = [.text (printLeaf env t)] := by
  rw [pieces_eq, piecesStep, h]
  dsimp only
  split
  · rfl
  · rename_i h'; rw [hc] at h'; cases h'

theorem pieces_node (hw : Printable env) {lb t c cs} (h : lb.lookup t = none) (hc : printChildren env t = c :: cs) :
    pieces hw lb t = .text (printOpen env t) :: pieces hw lb c ++ (cs.flatMap fun d => .text [32] :: pieces hw lb d) ++ [.text [41]] := by
  rw [pieces_eq, piecesStep, h]
  dsimp only
  split
  · rename_i h'; rw [hc] at h'; cases h'
  · rename_i c' cs' h'
    have : c = c' ∧ cs = cs' := by rw [hc] at h'; simpa using h'
    obtain ⟨rfl, rfl⟩ := this
    rw [flatMap_attach' cs (fun d => Piece.text [32] :: pieces hw lb d)]

theorem children_tail {t : Term} {c cs} (h : printChildren env t = c :: cs) (i : Nat) : t.children[i + 1]? = cs[i]? := by
  cases t with
  | node k ds =>
    have h : ds = c :: cs := h
    simp [Term.children, h]
  | lit l => simp [printChildren] at h
  | sym k j =>
    cases k <;> simp [printChildren] at h
    obtain ⟨_, rfl⟩ := h
    simp [Term.children]

theorem printLoop_term (hw : Printable env) (lb : List (Term × Nat)) (t : Term) :
    ∃ k, ∀ f visit os, printLoop env lb (f + k) ((t, 0) :: visit) os = printLoop env lb f visit (os ++ pieces hw lb t) := by
  induction t using WellFounded.induction hw with
  | _ t ih =>
  cases hl : lb.lookup t with
  | some i =>
    refine ⟨1, fun f visit os => ?_⟩
    simp only [printLoop, hl, pieces_ref hw hl]
  | none =>
  cases hc : printChildren env t with
  | nil =>
    refine ⟨1, fun f visit os => ?_⟩
    simp only [printLoop, hl, hc, pieces_leaf hw hl hc]
  | cons c cs =>
    -- the children after the first
    have rest : ∀ n i, cs.length - i = n → ∃ k, ∀ f visit os, printLoop env lb (f + k) ((t, i + 1) :: visit) os =
        printLoop env lb f visit (os ++ ((cs.drop i).flatMap fun d => .text [32] :: pieces hw lb d) ++ [.text [41]]) := by
      intro n
      induction n with
      | zero =>
        intro i hi
        have e : t.children[i + 1]? = none := by rw [children_tail hc]; simp; omega
        refine ⟨1, fun f visit os => ?_⟩
        have : cs.drop i = [] := by simp; omega
        simp only [printLoop, e, this, List.flatMap_nil, List.append_nil]
      | succ n ihn =>
        intro i hi
        have hlt : i < cs.length := by omega
        have e : t.children[i + 1]? = some cs[i] := by rw [children_tail hc]; simp [hlt]
        obtain ⟨k1, h1⟩ := ih cs[i] (by rw [hc]; exact List.mem_cons_of_mem _ (List.getElem_mem hlt))
        obtain ⟨k2, h2⟩ := ihn (i + 1) (by omega)
        refine ⟨k2 + k1 + 1, fun f visit os => ?_⟩
        rw [show f + (k2 + k1 + 1) = (f + k2 + k1) + 1 by omega]
        simp only [printLoop, e]
        rw [h1, h2, List.drop_eq_getElem_cons hlt]
        simp only [List.flatMap_cons, List.append_assoc, List.cons_append, List.nil_append]
    obtain ⟨k1, h1⟩ := ih c (by rw [hc]; exact List.mem_cons_self ..)
    obtain ⟨k2, h2⟩ := rest _ 0 rfl
    refine ⟨k2 + k1 + 1, fun f visit os => ?_⟩
    rw [show f + (k2 + k1 + 1) = (f + k2 + k1) + 1 by omega]
    simp only [printLoop, hl, hc]
    rw [h1, h2, pieces_node hw hl hc]
    simp

theorem printLoop_done (hw : Printable env) (lb : List (Term × Nat)) (t : Term) : ∃ k, ∀ f, k ≤ f → printLoop env lb f [(t, 0)] [] = .ok (pieces hw lb t) := by
  obtain ⟨k, h⟩ := printLoop_term hw lb t
  refine ⟨k, fun f hf => ?_⟩
  have := h (f - k) [] []
  rw [Nat.sub_add_cancel hf] at this
  rw [this]
  simp [printLoop]

/-! ### The weight of a term -/

noncomputable def weight (hw : Printable env) : Term → Nat :=
  WellFounded.fix (r := fun c t => c ∈ printChildren env t) hw fun t rec => 1 + ((printChildren env t).attach.map fun d => rec d.1 d.2).sum

theorem weight_eq (hw : Printable env) (t : Term) : weight hw t = 1 + ((printChildren env t).map (weight hw)).sum := by
  have e : weight hw t = 1 + ((printChildren env t).attach.map fun d => weight hw d.1).sum :=
    WellFounded.fix_eq (r := fun c t => c ∈ printChildren env t) hw _ t
  rw [e]
  congr 2
  have := List.attach_map_val (l := printChildren env t) (f := weight hw)
  exact this

theorem sum_mem {l : List Nat} {x : Nat} (h : x ∈ l) : x ≤ l.sum := by
  induction l with
  | nil => cases h
  | cons y l ih =>
    rw [List.sum_cons]
    rcases List.mem_cons.mp h with rfl | h
    · omega
    · have := ih h; omega

theorem weight_child (hw : Printable env) {t c : Term} (h : c ∈ printChildren env t) : weight hw c < weight hw t := by
  rw [weight_eq hw t]
  have := sum_mem (List.mem_map_of_mem (f := weight hw) h)
  omega

/-! ### The order of the shared terms -/

/-- the condition on the lists of the first loop -/
structure LetInv (hw : Printable env) (visit visited llv : List Term) (lcount : List (Term × Nat)) : Prop where
  opened : ∀ v ∈ visited, v ∉ llv → ∃ above below, visit = above ++ v :: below ∧ (∀ u ∈ above, weight hw u < weight hw v) ∧
    ∀ c ∈ printChildren env v, c ∈ above ∨ c ∈ llv ∨ printChildren env c = []
  done : ∀ v ∈ llv, v ∈ visited
  counted : ∀ v, lcount.lookup v = none ↔ v ∉ llv
  order : ∀ a x b, llv = a ++ x :: b → ∀ c ∈ printChildren env x, printChildren env c ≠ [] → c ∈ a
  nodup : llv.Nodup

theorem lookup_increment (t u : Term) : ∀ l, (increment t l).lookup u = none ↔ u ≠ t ∧ l.lookup u = none
  | [] => by
    by_cases h : u = t
    · simp [increment, List.lookup, h]
    · have : (u == t) = false := by simpa using h
      simp [increment, List.lookup, h, this]
  | (v, n) :: l => by
    have ih := lookup_increment t u l
    unfold increment
    by_cases hv : v = t
    · rw [if_pos hv]
      subst hv
      by_cases hu : u = v
      · simp [List.lookup, hu]
      · have : (u == v) = false := by simpa using hu
        simp [List.lookup, this, hu]
    · rw [if_neg hv]
      by_cases hu : u = v
      · simp [List.lookup, hu]
      · have : (u == v) = false := by simpa using hu
        simp only [List.lookup, this, ih]

theorem LetInv.leaf {hw : Printable env} {cur visit visited llv lcount} (H : LetInv hw (cur :: visit) visited llv lcount) (hc : printChildren env cur = [])
    (hv : ∀ v ∈ visited, printChildren env v ≠ []) : LetInv hw visit visited llv lcount where
  opened := by
    intro v h1 h2
    obtain ⟨above, below, e, h3, h4⟩ := H.opened v h1 h2
    cases above with
    | nil =>
      simp at e
      exact absurd (e.1 ▸ hc) (hv v h1)
    | cons a above =>
      simp at e
      refine ⟨above, below, e.2, fun u hu => h3 u (List.mem_cons_of_mem _ hu), fun c hcc => ?_⟩
      rcases h4 c hcc with h | h
      · rcases List.mem_cons.mp h with rfl | h
        · exact .inr (.inr (e.1 ▸ hc))
        · exact .inl h
      · exact .inr h
  done := H.done
  counted := H.counted
  order := H.order
  nodup := H.nodup

theorem LetInv.visit {hw : Printable env} {cur visit visited llv lcount} (H : LetInv hw (cur :: visit) visited llv lcount) (hc : cur ∉ visited) :
    LetInv hw ((printChildren env cur).reverse ++ cur :: visit) (cur :: visited) llv lcount where
  opened := by
    intro v h1 h2
    rcases List.mem_cons.mp h1 with rfl | h1
    · refine ⟨_, _, rfl, fun u hu => weight_child hw (by simpa using hu), fun c hcc => .inl (by simpa using hcc)⟩
    · obtain ⟨above, below, e, h3, h4⟩ := H.opened v h1 h2
      cases above with
      | nil =>
        simp at e
        exact absurd (e.1 ▸ h1) hc
      | cons a above =>
        simp at e
        refine ⟨(printChildren env cur).reverse ++ cur :: above, below, by rw [e.2]; simp, ?_, ?_⟩
        · have h0 := h3 a (List.mem_cons_self ..)
          intro u hu
          rcases List.mem_append.mp hu with hu | hu
          · exact Nat.lt_trans (weight_child hw (by simpa using hu)) (e.1 ▸ h0)
          · rcases List.mem_cons.mp hu with rfl | hu
            · exact e.1 ▸ h0
            · exact h3 u (List.mem_cons_of_mem _ hu)
        · intro c hcc
          rcases h4 c hcc with h | h
          · rw [← e.1] at h
            exact .inl (List.mem_append_right _ h)
          · exact .inr h
  done := fun v hv => List.mem_cons_of_mem _ (H.done v hv)
  counted := H.counted
  order := H.order
  nodup := H.nodup

theorem LetInv.pop {hw : Printable env} {cur visit visited llv lcount} (H : LetInv hw (cur :: visit) visited llv lcount) (hc : cur ∈ visited) :
    LetInv hw visit visited (if lcount.lookup cur = none then llv ++ [cur] else llv) (increment cur lcount) := by
  have key : ∃ l, (if lcount.lookup cur = none then llv ++ [cur] else llv) = l ∧ (∀ v, v ∈ l ↔ v ∈ llv ∨ v = cur) ∧ l.Nodup ∧
      (∀ a x b, l = a ++ x :: b → ∀ c ∈ printChildren env x, printChildren env c ≠ [] → c ∈ a) := by
    refine ⟨_, rfl, ?_, ?_, ?_⟩
    · intro v
      by_cases h : lcount.lookup cur = none
      · simp [h]
      · have := fun g => h ((H.counted cur).mpr g)
        simp only [h, if_false]
        constructor
        · exact .inl
        · rintro (h1 | rfl)
          · exact h1
          · exact Decidable.not_not.mp this
    · by_cases h : lcount.lookup cur = none
      · have hn := (H.counted cur).mp h
        rw [if_pos h]
        rw [List.nodup_append]
        exact ⟨H.nodup, by simp, by rintro a ha b hb; simp at hb; rintro rfl; exact hn (hb ▸ ha)⟩
      · rw [if_neg h]; exact H.nodup
    · intro a x b e c hcc hne
      by_cases h : lcount.lookup cur = none
      · have hn := (H.counted cur).mp h
        rw [if_pos h] at e
        rcases List.eq_nil_or_concat b with rfl | ⟨b', y, rfl⟩
        · have e' : llv = a ∧ cur = x := by
            have := List.append_inj' e rfl
            simpa using this
          obtain ⟨rfl, rfl⟩ := e'
          obtain ⟨above, below, e1, h3, h4⟩ := H.opened cur hc hn
          cases above with
          | cons u above =>
            simp at e1
            have := h3 u (List.mem_cons_self ..)
            rw [← e1.1] at this
            exact absurd this (Nat.lt_irrefl _)
          | nil =>
            rcases h4 c hcc with h | h | h
            · cases h
            · exact h
            · exact absurd h hne
        · have e' : llv = a ++ x :: b' := by
            have : llv ++ [cur] = (a ++ x :: b') ++ [y] := by rw [e]; simp
            exact (List.append_inj' this rfl).1
          exact H.order a x b' e' c hcc hne
      · rw [if_neg h] at e
        exact H.order a x b e c hcc hne
  obtain ⟨l, e, hm, hnd, hord⟩ := key
  rw [e]
  refine ⟨?_, ?_, ?_, hord, hnd⟩
  · intro v h1 h2
    have h2' : v ∉ llv ∧ v ≠ cur := ⟨fun h => h2 ((hm v).mpr (.inl h)), fun h => h2 ((hm v).mpr (.inr h))⟩
    obtain ⟨above, below, e1, h3, h4⟩ := H.opened v h1 h2'.1
    cases above with
    | nil => simp at e1; exact absurd e1.1.symm h2'.2
    | cons a above =>
      simp at e1
      refine ⟨above, below, e1.2, fun u hu => h3 u (List.mem_cons_of_mem _ hu), fun c hcc => ?_⟩
      rcases h4 c hcc with h | h | h
      · rcases List.mem_cons.mp h with rfl | h
        · exact .inr (.inl ((hm _).mpr (.inr e1.1.symm)))
        · exact .inl h
      · exact .inr (.inl ((hm _).mpr (.inl h)))
      · exact .inr (.inr h)
  · intro v hv
    rcases (hm v).mp hv with h | rfl
    · exact H.done v h
    · exact hc
  · intro v
    rw [lookup_increment, H.counted, hm]
    constructor
    · rintro ⟨h1, h2⟩ (h | h)
      · exact h2 h
      · exact h1 h
    · intro h
      exact ⟨fun g => h (.inr g), fun g => h (.inl g)⟩

/-- what is still to be done -/
noncomputable def pot (hw : Printable env) (visited visit : List Term) : Nat :=
  (visit.map fun v => if v ∈ visited then 1 else 2 * weight hw v).sum

theorem pot_mono (hw : Printable env) {visited cur} : ∀ visit, pot hw (cur :: visited) visit ≤ pot hw visited visit
  | [] => Nat.le_refl _
  | v :: visit => by
    have ih := pot_mono hw (visited := visited) (cur := cur) visit
    simp only [pot, List.map_cons, List.sum_cons] at ih ⊢
    have : (if v ∈ cur :: visited then 1 else 2 * weight hw v) ≤ (if v ∈ visited then 1 else 2 * weight hw v) := by
      have := weight_eq hw v
      by_cases h : v ∈ visited
      · simp [h]
      · by_cases h' : v = cur
        · subst h'; simp [h]; omega
        · simp [h, h']
    omega

theorem pot_children (hw : Printable env) {visited} : ∀ cs : List Term, pot hw visited cs ≤ 2 * (cs.map (weight hw)).sum
  | [] => Nat.le_refl _
  | v :: cs => by
    have ih := pot_children hw (visited := visited) cs
    simp only [pot, List.map_cons, List.sum_cons] at ih ⊢
    have : (if v ∈ visited then 1 else 2 * weight hw v) ≤ 2 * weight hw v := by
      have := weight_eq hw v
      split <;> omega
    omega

theorem pot_append (hw : Printable env) (visited a b : List Term) : pot hw visited (a ++ b) = pot hw visited a + pot hw visited b := by
  simp [pot]

theorem letLoop_done (hw : Printable env) : ∀ (n : Nat) (visit visited llv : List Term) (lcount : List (Term × Nat)),
    pot hw visited visit ≤ n → LetInv hw visit visited llv lcount → (∀ v ∈ visited, printChildren env v ≠ []) →
    ∃ r visited', (∀ f, n ≤ f → letLoop env f visit visited llv lcount = .ok r) ∧ LetInv hw [] visited' r.1 r.2 ∧ ∀ v ∈ visited', printChildren env v ≠ [] := by
  intro n
  induction n with
  | zero =>
    intro visit visited llv lcount hp H hv
    cases visit with
    | nil => exact ⟨(llv, lcount), visited, fun f _ => by cases f <;> rfl, H, hv⟩
    | cons v visit =>
      simp only [pot, List.map_cons, List.sum_cons] at hp
      have := weight_eq hw v
      split at hp <;> omega
  | succ n ih =>
    intro visit visited llv lcount hp H hv
    cases visit with
    | nil => exact ⟨(llv, lcount), visited, fun f _ => by cases f <;> rfl, H, hv⟩
    | cons cur visit =>
    have hwt := weight_eq hw cur
    have hp' : (if cur ∈ visited then 1 else 2 * weight hw cur) + pot hw visited visit ≤ n + 1 := by
      simpa [pot] using hp
    have step : ∀ {v' vd' l' c'}, pot hw vd' v' ≤ n → LetInv hw v' vd' l' c' → (∀ v ∈ vd', printChildren env v ≠ []) →
        (∀ f, letLoop env (f + 1) (cur :: visit) visited llv lcount = letLoop env f v' vd' l' c') →
        ∃ r visited', (∀ f, n + 1 ≤ f → letLoop env f (cur :: visit) visited llv lcount = .ok r) ∧ LetInv hw [] visited' r.1 r.2 ∧ ∀ v ∈ visited', printChildren env v ≠ [] := by
      intro v' vd' l' c' h1 h2 h3 h4
      obtain ⟨r, vd, h5, h6, h7⟩ := ih _ _ _ _ h1 h2 h3
      refine ⟨r, vd, fun f hf => ?_, h6, h7⟩
      cases f with
      | zero => omega
      | succ f => rw [h4, h5 f (by omega)]
    by_cases hc : printChildren env cur = []
    · refine step ?_ (H.leaf hc hv) hv (fun f => by simp only [letLoop, if_pos hc])
      split at hp' <;> omega
    · by_cases hvis : cur ∈ visited
      · refine step ?_ (H.pop hvis) hv (fun f => by simp only [letLoop, if_neg hc, hvis, not_true, if_false])
        rw [if_pos hvis] at hp'
        omega
      · refine step ?_ (H.visit hvis) ?_ (fun f => by simp only [letLoop, if_neg hc, hvis, not_false_eq_true, if_true])
        · rw [if_neg hvis] at hp'
          rw [pot_append]
          have h1 := pot_children hw (visited := cur :: visited) (printChildren env cur).reverse
          rw [List.map_reverse, List.sum_reverse] at h1
          have h2 := pot_mono hw (visited := visited) (cur := cur) visit
          have h3 : pot hw (cur :: visited) (cur :: visit) = 1 + pot hw (cur :: visited) visit := by simp [pot]
          omega
        · intro v h
          rcases List.mem_cons.mp h with rfl | h
          · exact hc
          · exact hv v h

/-- the shared terms, in the order in which they are defined -/
theorem computeLetBinding_done (hw : Printable env) (e : Term) : ∃ n ll, (∀ f, n ≤ f → computeLetBinding env f e = .ok ll) ∧ ll.Nodup ∧
    (∀ u ∈ ll, printChildren env u ≠ []) ∧ ∃ llv, (∃ p, ll = llv.filter p) ∧ llv.Nodup ∧
    ∀ a x b, llv = a ++ x :: b → ∀ c ∈ printChildren env x, printChildren env c ≠ [] → c ∈ a := by
  have H0 : LetInv hw [e] [] [] [] := ⟨by simp, by simp, by simp, by simp, by simp⟩
  obtain ⟨r, vd, h1, h2, h3⟩ := letLoop_done hw _ [e] [] [] [] (Nat.le_refl _) H0 (by simp)
  refine ⟨_, keepShared r.1 r.2, fun f hf => by rw [computeLetBinding, h1 f hf]; rfl, h2.nodup.sublist List.filter_sublist, ?_, r.1, ⟨_, rfl⟩, h2.nodup, h2.order⟩
  intro u hu
  exact h3 u (h2.done u (List.mem_filter.mp hu).1)

/-! ### Expanding the definitions -/

/-- what occurs in a printed term -/
inductive Below (env : PrintEnv) : Term → Term → Prop
  | refl (t) : Below env t t
  | child (t c u) : c ∈ printChildren env t → Below env c u → Below env t u

theorem below_leaf {t u : Term} (h : Below env t u) (hc : printChildren env t = []) : u = t := by
  cases h with
  | refl => rfl
  | child _ c _ h _ => rw [hc] at h; cases h

theorem below_before {llv : List Term} (ho : ∀ a x b, llv = a ++ x :: b → ∀ c ∈ printChildren env x, printChildren env c ≠ [] → c ∈ a) {x u : Term} (h : Below env x u) :
    ∀ a b, llv = a ++ x :: b → u ≠ x → printChildren env u ≠ [] → u ∈ a := by
  induction h with
  | refl => intro _ _ _ h; exact absurd rfl h
  | child t c u hc hb ih =>
    intro a b e hne hu
    by_cases hcl : printChildren env c = []
    · rw [below_leaf hb hcl] at hu
      exact absurd hcl hu
    · have hca := ho a t b e c hc hcl
      by_cases huc : u = c
      · exact huc ▸ hca
      · obtain ⟨a1, a2, rfl⟩ := List.append_of_mem hca
        have := ih a1 (a2 ++ t :: b) (by rw [e]; simp) huc hu
        exact List.mem_append_left _ this

theorem writePieces_append (a b : List Piece) : writePieces (a ++ b) = writePieces a ++ writePieces b := by simp [writePieces]

theorem substPieces_append {vals : List (List Nat)} : ∀ {a b x y}, substPieces vals a = some x → substPieces vals b = some y → substPieces vals (a ++ b) = some (x ++ y)
  | [], b, x, y, ha, hb => by
    simp only [substPieces, Option.some.injEq] at ha
    subst ha
    simpa using hb
  | .text s :: a, b, x, y, ha, hb => by
    simp only [substPieces, Option.map_eq_some_iff] at ha
    obtain ⟨x', h1, rfl⟩ := ha
    simp [substPieces, substPieces_append h1 hb]
  | .ref n :: a, b, x, y, ha, hb => by
    simp only [substPieces, Option.bind_eq_some_iff, Option.map_eq_some_iff] at ha
    obtain ⟨v, h0, x', h1, rfl⟩ := ha
    simp [substPieces, substPieces_append h1 hb, h0]

/-- the text of a term without definitions -/
noncomputable def full (hw : Printable env) (t : Term) : List Nat := writePieces (pieces hw [] t)

theorem full_leaf (hw : Printable env) {t} (hc : printChildren env t = []) : full hw t = printLeaf env t := by
  simp [full, pieces_leaf hw (lb := []) rfl hc, writePieces, Piece.write]

theorem full_node (hw : Printable env) {t c cs} (hc : printChildren env t = c :: cs) :
    full hw t = printOpen env t ++ full hw c ++ (cs.flatMap fun d => 32 :: full hw d) ++ [41] := by
  have : ∀ cs : List Term, writePieces (cs.flatMap fun d => Piece.text [32] :: pieces hw [] d) = cs.flatMap fun d => 32 :: full hw d := by
    intro cs
    induction cs with
    | nil => rfl
    | cons d cs ih =>
      rw [List.flatMap_cons, writePieces_append, ih, List.flatMap_cons]
      rfl
  rw [full, pieces_node hw (lb := []) rfl hc, writePieces_append, writePieces_append, this]
  rfl

theorem subst_pieces (hw : Printable env) {lb : List (Term × Nat)} {vals : List (List Nat)} (t : Term)
    (h : ∀ u j, Below env t u → lb.lookup u = some j → vals[j]? = some (full hw u)) : substPieces vals (pieces hw lb t) = some (full hw t) := by
  induction t using WellFounded.induction hw with
  | _ t ih =>
  cases hl : lb.lookup t with
  | some i =>
    rw [pieces_ref hw hl]
    simp [substPieces, h t i (.refl t) hl]
  | none =>
  cases hc : printChildren env t with
  | nil =>
    rw [pieces_leaf hw hl hc, full_leaf hw hc]
    simp [substPieces]
  | cons c cs =>
    have hd : ∀ d ∈ printChildren env t, substPieces vals (pieces hw lb d) = some (full hw d) := fun d hd =>
      ih d hd fun u j hu hj => h u j (.child _ _ _ hd hu) hj
    rw [hc] at hd
    have hcs : ∀ cs : List Term, (∀ d ∈ cs, substPieces vals (pieces hw lb d) = some (full hw d)) →
        substPieces vals (cs.flatMap fun d => Piece.text [32] :: pieces hw lb d) = some (cs.flatMap fun d => 32 :: full hw d) := by
      intro cs
      induction cs with
      | nil => intro _; rfl
      | cons d cs ihc =>
        intro h
        rw [List.flatMap_cons, List.flatMap_cons]
        refine substPieces_append ?_ (ihc fun d hd => h d (List.mem_cons_of_mem _ hd))
        simp [substPieces, h d (List.mem_cons_self ..)]
    rw [pieces_node hw hl hc, full_node hw hc]
    refine substPieces_append (substPieces_append ?_ (hcs cs fun d h => hd d (List.mem_cons_of_mem _ h))) (by simp [substPieces])
    simp [substPieces, hd c (List.mem_cons_self ..)]

theorem lookup_zipIdx {u : Term} : ∀ {l : List Term} {n j}, (l.zipIdx n).lookup u = some j → ∃ i, j = n + i ∧ l[i]? = some u
  | [], n, j, h => by simp [List.lookup] at h
  | v :: l, n, j, h => by
    rw [List.zipIdx_cons] at h
    by_cases hu : u = v
    · subst hu
      simp [List.lookup] at h
      exact ⟨0, by omega, by simp⟩
    · have : (u == v) = false := by simpa using hu
      simp only [List.lookup, this] at h
      obtain ⟨i, h1, h2⟩ := lookup_zipIdx h
      exact ⟨i + 1, by omega, by simpa using h2⟩

theorem lookup_filter {u l : Term} {lb : List (Term × Nat)} {j} (h : (lb.filter (·.1 ≠ l)).lookup u = some j) : u ≠ l ∧ lb.lookup u = some j := by
  induction lb with
  | nil => simp [List.lookup] at h
  | cons p lb ih =>
    obtain ⟨v, i⟩ := p
    by_cases hv : v = l
    · rw [List.filter_cons_of_neg (by simp [hv])] at h
      have := ih h
      refine ⟨this.1, ?_⟩
      have : (u == v) = false := by rw [hv]; simpa using this.1
      simp only [List.lookup, this, ih h]
    · rw [List.filter_cons_of_pos (by simp [hv])] at h
      by_cases hu : u = v
      · subst hu
        simp [List.lookup] at h ⊢
        exact ⟨hv, h⟩
      · have : (u == v) = false := by simpa using hu
        simp only [List.lookup, this] at h ⊢
        exact ih h

theorem printBindings_done (hw : Printable env) (lb : List (Term × Nat)) : ∀ ll, ∃ k, ∀ f, k ≤ f →
    printBindings env f lb ll = .ok (ll.map fun l => pieces hw (lb.filter (·.1 ≠ l)) l)
  | [] => ⟨0, fun f _ => rfl⟩
  | l :: ll => by
    obtain ⟨k1, h1⟩ := printLoop_done hw (lb.filter (·.1 ≠ l)) l
    obtain ⟨k2, h2⟩ := printBindings_done hw lb ll
    refine ⟨k1 + k2, fun f hf => ?_⟩
    simp only [printBindings]
    rw [h1 f (by omega), h2 f (by omega)]
    simp [Run.bind, Run.map]

theorem expandDefs_done (hw : Printable env) {ll llv : List Term} {p : Term → Bool} (he : ll = llv.filter p) (hnd : llv.Nodup) (hne : ∀ u ∈ ll, printChildren env u ≠ [])
    (ho : ∀ a x b, llv = a ++ x :: b → ∀ c ∈ printChildren env x, printChildren env c ≠ [] → c ∈ a) :
    ∀ rest done, ll = done ++ rest → expandDefs (done.map (full hw)) (rest.map fun l => pieces hw ((letBinding ll).filter (·.1 ≠ l)) l) = some (ll.map (full hw)) := by
  intro rest
  induction rest with
  | nil => intro done e; simp [expandDefs, e]
  | cons l rest ih =>
    intro done e
    have hnl : ll.Nodup := by rw [he]; exact hnd.sublist List.filter_sublist
    have hs : substPieces (done.map (full hw)) (pieces hw ((letBinding ll).filter (·.1 ≠ l)) l) = some (full hw l) := by
      refine subst_pieces hw l fun u j hu hj => ?_
      obtain ⟨hul, hj⟩ := lookup_filter hj
      obtain ⟨i, rfl, hi⟩ := lookup_zipIdx hj
      rw [Nat.zero_add]
      have hmem : u ∈ ll := List.mem_of_getElem? hi
      -- u comes before l
      have hsplit : ∃ a b, llv = a ++ l :: b ∧ a.filter p = done := by
        rw [he, List.filter_eq_append_iff] at e
        obtain ⟨a, b, e1, e2, e3⟩ := e
        rw [List.filter_eq_cons_iff] at e3
        obtain ⟨b1, b2, e4, e5, e6, e7⟩ := e3
        refine ⟨a ++ b1, b2, by rw [e1, e4]; simp, ?_⟩
        rw [List.filter_append, e2, List.filter_eq_nil_iff.mpr e5, List.append_nil]
      obtain ⟨a, b, e1, e2⟩ := hsplit
      have hua : u ∈ a := below_before ho hu a b e1 hul (hne u hmem)
      have hpu : p u = true := by rw [he] at hmem; exact (List.mem_filter.mp hmem).2
      have hud : u ∈ done := by rw [← e2]; exact List.mem_filter.mpr ⟨hua, hpu⟩
      have hlt : i < done.length := by
        refine Decidable.byContradiction fun hge => ?_
        have hge : done.length ≤ i := by omega
        rw [e, List.getElem?_append_right hge] at hi
        have h2 : u ∈ l :: rest := List.mem_of_getElem? hi
        rw [e, List.nodup_append] at hnl
        exact hnl.2.2 u hud u h2 rfl
      rw [e, List.getElem?_append_left hlt] at hi
      simp [hi]
    have := ih (done ++ [l]) (by rw [e]; simp)
    simp only [List.map_cons, expandDefs, hs, Option.bind_some]
    simpa using this

end Ethos.Props
