import Verif.Model.Match
import Verif.Lemmas.Vars
/-
Helper lemmas for C27, C28.
-/
namespace Ethos
open Kind Spec Term

def psizes (st : List (Term × Term)) : Nat := sizes (st.map Prod.fst)

theorem psizes_cons (a b : Term) (st : List (Term × Term)) : psizes ((a, b) :: st) = size a + psizes st := by
  simp [psizes, sizes]

theorem psizes_append (s t : List (Term × Term)) : psizes (s ++ t) = psizes s + psizes t := by
  simp [psizes, sizes_append]

theorem psizes_zip (cs ds : List Term) : psizes (cs.zip ds).reverse ≤ sizes cs := by
  have h1 : psizes (cs.zip ds).reverse = psizes (cs.zip ds) := by
    unfold psizes; rw [List.map_reverse, sizes_reverse]
  rw [h1]
  induction cs generalizing ds with
  | nil => simp [psizes, sizes]
  | cons c cs ih =>
    cases ds with
    | nil => simp [psizes, sizes]
    | cons d ds =>
      rw [List.zip_cons_cons, psizes_cons]
      simp only [sizes]
      have := ih ds (by unfold psizes; rw [List.map_reverse, sizes_reverse])
      omega

/-- the fuel given by `matchTerm` suffices -/
theorem matchLoop_total : ∀ (n : Nat) (st vis : List (Term × Term)) (ctx : Ctx), psizes st ≤ n →
    ∃ r, matchLoop n st vis ctx = some r := by
  intro n
  induction n with
  | zero =>
    intro st vis ctx h
    cases st with
    | nil => exact ⟨_, rfl⟩
    | cons p st =>
      obtain ⟨a, b⟩ := p
      have := size_pos a
      rw [psizes_cons] at h; omega
  | succ n ih =>
    intro st vis ctx h
    cases st with
    | nil => exact ⟨_, rfl⟩
    | cons p st =>
      obtain ⟨a, b⟩ := p
      have hp := size_pos a
      rw [psizes_cons] at h
      have hr := fun vis ctx => ih st vis ctx (by omega)
      rw [matchLoop]
      split
      · split
        · exact hr _ _
        · exact ⟨_, rfl⟩
      · split
        · exact hr _ _
        · split
          · split
            · split
              · exact hr _ _
              · split
                · exact ⟨_, rfl⟩
                · exact hr _ _
            · exact ⟨_, rfl⟩
          · split
            · exact ⟨_, rfl⟩
            · refine ih _ _ _ ?_
              have h1 := psizes_zip a.children b.children
              have h2 := size_children a
              rw [psizes_append]; omega

theorem matchTerm_total (a b : Term) (ctx : Ctx) : ∃ r, matchTerm a b ctx = some r :=
  matchLoop_total _ _ _ _ (by simp [psizes, sizes])

theorem find_cons (ctx : Ctx) (a b p : Term) : Ctx.find ((a, b) :: ctx) p = if p = a then some b else ctx.find p := by
  unfold Ctx.find
  rw [List.lookup_cons]
  by_cases h : p = a
  · subst h; simp
  · have : (p == a) = false := by simpa using h
    simp [this, h]

/-- loop invariant for soundness -/
structure MInv (rs : List (Term × Term)) (ctx0 : Ctx) (st vis : List (Term × Term)) (ctx : Ctx) : Prop where
  ext : ∀ p v, ctx0.find p = some v → ctx.find p = some v
  only : ∀ p v, ctx.find p = some v → ctx0.find p = some v ∨ (IsParam p ∧ ∃ r ∈ rs, Sub p r.1)
  sub : ∀ q ∈ st, ∃ r ∈ rs, Sub q.1 r.1
  root : ∀ a b, (a, b) ∈ rs → (a.ground = true ∧ a = b) ∨ (a, b) ∈ vis ∨ (a, b) ∈ st
  leaf : ∀ a b, (a, b) ∈ vis → a.children = [] → a.kind = PARAM ∧ ctx.find a = some b
  node : ∀ a b, (a, b) ∈ vis → a.children ≠ [] → a.kind = b.kind ∧ a.children.length = b.children.length ∧
    ∀ c d, (c, d) ∈ a.children.zip b.children → (c.ground = true ∧ c = d) ∨ (c, d) ∈ vis ∨ (c, d) ∈ st

theorem leaf_param_eq (σ : Term → Term) (a : Term) (h : IsParam a) : subst σ a = σ a := by
  cases a with
  | sym k i => simp [IsParam, kind] at h; simp [subst, h]
  | lit l => simp [IsParam, kind] at h; cases l <;> simp [Lit.kind] at h
  | node k cs => simp [IsParam, kind, children] at h; simp [subst, h]

theorem substs_eq_of_zip (σ : Term → Term) : ∀ (cs ds : List Term), cs.length = ds.length →
    (∀ c d, (c, d) ∈ cs.zip ds → subst σ c = d) → substs σ cs = ds := by
  intro cs
  induction cs with
  | nil => intro ds h _; cases ds <;> simp_all [substs]
  | cons c cs ih =>
    intro ds h hz
    cases ds with
    | nil => simp at h
    | cons d ds =>
      simp only [substs]
      rw [hz c d (by simp), ih ds (by simpa using h) (fun c d hm => hz c d (by simp [hm]))]

theorem mem_zip_fst {c : Term} {cs ds : List Term} (hc : c ∈ cs) (hl : cs.length = ds.length) :
    ∃ d, (c, d) ∈ cs.zip ds := by
  induction cs generalizing ds with
  | nil => simp at hc
  | cons x cs ih =>
    cases ds with
    | nil => simp at hl
    | cons d ds =>
      rcases List.mem_cons.mp hc with rfl | hc
      · exact ⟨d, by simp⟩
      · obtain ⟨d', hd'⟩ := ih hc (by simpa using hl)
        exact ⟨d', by simp [hd']⟩

/-- a closed set of visited pairs consists of instances -/
theorem MInv.finish {rs : List (Term × Term)} {ctx0 : Ctx} {vis : List (Term × Term)} {ctx : Ctx}
    (h : MInv rs ctx0 [] vis ctx) : ∀ a0 b0, (a0, b0) ∈ rs →
    subst (ctxSub ctx) a0 = b0 ∧ ∀ p, Sub p a0 → IsParam p → ∃ v, ctx.find p = some v := by
  have key : ∀ a b, (a.ground = true ∧ a = b) ∨ (a, b) ∈ vis →
      subst (ctxSub ctx) a = b ∧ ∀ p, Sub p a → IsParam p → ∃ v, ctx.find p = some v := by
    intro a
    induction a using Term.induct' with
    | h a ih =>
      intro b hab
      rcases hab with ⟨hg, rfl⟩ | hv
      · refine ⟨subst_ground _ _ hg, ?_⟩
        intro p hp hpp
        have := Props.ground_sub hg hp
        rw [Props.param_not_ground hpp] at this
        cases this
      · by_cases hl : a.children = []
        · have hlf := h.leaf a b hv hl
          refine ⟨?_, ?_⟩
          · rw [leaf_param_eq _ _ ⟨hlf.1, hl⟩, ctxSub, hlf.2]; rfl
          · intro p hp _
            rcases hp.inv with rfl | ⟨c, hc, _⟩
            · exact ⟨b, hlf.2⟩
            · simp [hl] at hc
        · obtain ⟨hk, hlen, hch⟩ := h.node a b hv hl
          have hz : ∀ c d, (c, d) ∈ a.children.zip b.children →
              subst (ctxSub ctx) c = d ∧ ∀ p, Sub p c → IsParam p → ∃ v, ctx.find p = some v := by
            intro c d hm
            have hc := (List.of_mem_zip hm).1
            apply ih c hc d
            have := hch c d hm
            simpa using this
          constructor
          · cases a with
            | sym k i => simp [children] at hl
            | lit l => simp [children] at hl
            | node k cs =>
              have hbl : b.children ≠ [] := by
                intro hb; rw [hb] at hlen; simp at hlen; exact hl hlen
              cases b with
              | sym k i => simp [children] at hbl
              | lit l => simp [children] at hbl
              | node k' ds =>
                simp only [children] at hl hlen hz
                simp only [kind] at hk
                subst hk
                rw [subst, if_neg (by simp [hl])]
                congr 1
                exact substs_eq_of_zip _ _ _ hlen (fun c d hm => (hz c d hm).1)
          · intro p hp hpp
            rcases hp.inv with rfl | ⟨c, hc, hs⟩
            · exact absurd hpp.2 hl
            · obtain ⟨d, hd⟩ := mem_zip_fst hc hlen
              exact (hz c d hd).2 p hs hpp
  intro a0 b0 h0
  apply key
  have := h.root a0 b0 h0
  simpa using this

theorem matchLoop_sound (rs : List (Term × Term)) (ctx0 : Ctx) :
    ∀ (n : Nat) (st vis : List (Term × Term)) (ctx ctx' : Ctx), MInv rs ctx0 st vis ctx →
    matchLoop n st vis ctx = some (true, ctx') → ∃ vis', MInv rs ctx0 [] vis' ctx' := by
  intro n
  induction n with
  | zero =>
    intro st vis ctx ctx' hi h
    cases st with
    | nil =>
      simp [matchLoop] at h
      subst h
      exact ⟨vis, hi⟩
    | cons p st => simp [matchLoop] at h
  | succ n ih =>
    intro st vis ctx ctx' hi h
    cases st with
    | nil =>
      simp [matchLoop] at h
      subst h
      exact ⟨vis, hi⟩
    | cons p st =>
      obtain ⟨a, b⟩ := p
      have drop : (a.ground = true ∧ a = b) ∨ (a, b) ∈ vis → MInv rs ctx0 st vis ctx := by
        intro hab
        have tr : ∀ c d, ((c.ground = true ∧ c = d) ∨ (c, d) ∈ vis ∨ (c, d) ∈ (a, b) :: st) →
            ((c.ground = true ∧ c = d) ∨ (c, d) ∈ vis ∨ (c, d) ∈ st) := by
          intro c d h
          rcases h with h | h | h
          · exact Or.inl h
          · exact Or.inr (Or.inl h)
          · rcases List.mem_cons.mp h with h | h
            · cases h
              rcases hab with h | h
              · exact Or.inl h
              · exact Or.inr (Or.inl h)
            · exact Or.inr (Or.inr h)
        exact ⟨hi.ext, hi.only, fun q hq => hi.sub q (by simp [hq]), fun x y hxy => tr _ _ (hi.root x y hxy), hi.leaf,
          fun x y hxy hne => ⟨(hi.node x y hxy hne).1, (hi.node x y hxy hne).2.1,
            fun c d hm => tr c d ((hi.node x y hxy hne).2.2 c d hm)⟩⟩
      have hsub : ∃ r ∈ rs, Sub a r.1 := hi.sub (a, b) (by simp)
      rw [matchLoop] at h
      split at h
      · rename_i hg
        split at h
        · rename_i hab
          exact ih st vis ctx ctx' (drop (Or.inl ⟨hg, hab⟩)) h
        · simp at h
      · split at h
        · rename_i hv
          exact ih st vis ctx ctx' (drop (Or.inr hv)) h
        · have tr : ∀ (ex : List (Term × Term)) c d, ((c.ground = true ∧ c = d) ∨ (c, d) ∈ vis ∨ (c, d) ∈ (a, b) :: st) →
              ((c.ground = true ∧ c = d) ∨ (c, d) ∈ (a, b) :: vis ∨ (c, d) ∈ ex ++ st) := by
            intro ex c d h
            rcases h with h | h | h
            · exact Or.inl h
            · exact Or.inr (Or.inl (by simp [h]))
            · rcases List.mem_cons.mp h with h | h
              · cases h; exact Or.inr (Or.inl (by simp))
              · exact Or.inr (Or.inr (by simp [h]))
          split at h
          · rename_i hlen
            have hnil : a.children = [] := List.length_eq_zero_iff.mp hlen
            split at h
            · rename_i hk
              split at h
              · rename_i hfind
                refine ih st _ _ ctx' ⟨?_, ?_, ?_, ?_, ?_, ?_⟩ h
                · intro p v hp
                  have := hi.ext p v hp
                  rw [find_cons]
                  split
                  · rename_i hpa; subst hpa; rw [hfind] at this; cases this
                  · exact this
                · intro p v hp
                  rw [find_cons] at hp
                  split at hp
                  · rename_i hpa; subst hpa; exact Or.inr ⟨⟨hk, hnil⟩, hsub⟩
                  · exact hi.only p v hp
                · exact fun q hq => hi.sub q (by simp [hq])
                · exact fun x y hxy => tr [] _ _ (hi.root x y hxy)
                · intro x y hxy hx
                  rcases List.mem_cons.mp hxy with e | hxy
                  · cases e; exact ⟨hk, by simp [find_cons]⟩
                  · have := hi.leaf x y hxy hx
                    refine ⟨this.1, ?_⟩
                    rw [find_cons]
                    split
                    · rename_i e; rw [e, hfind] at this; simp at this
                    · exact this.2
                · intro x y hxy hx
                  rcases List.mem_cons.mp hxy with e | hxy
                  · cases e; exact absurd hnil hx
                  · obtain ⟨h1, h2, h3⟩ := hi.node x y hxy hx
                    exact ⟨h1, h2, fun c d hm => tr [] c d (h3 c d hm)⟩
              · rename_i v hfind
                split at h
                · simp at h
                · rename_i hvb
                  have hvb : v = b := by simpa using hvb
                  subst hvb
                  refine ih st _ _ ctx' ⟨hi.ext, hi.only, ?_, ?_, ?_, ?_⟩ h
                  · exact fun q hq => hi.sub q (by simp [hq])
                  · exact fun x y hxy => tr [] _ _ (hi.root x y hxy)
                  · intro x y hxy hx
                    rcases List.mem_cons.mp hxy with e | hxy
                    · cases e; exact ⟨hk, hfind⟩
                    · exact hi.leaf x y hxy hx
                  · intro x y hxy hx
                    rcases List.mem_cons.mp hxy with e | hxy
                    · cases e; exact absurd hnil hx
                    · obtain ⟨h1, h2, h3⟩ := hi.node x y hxy hx
                      exact ⟨h1, h2, fun c d hm => tr [] c d (h3 c d hm)⟩
            · simp at h
          · rename_i hlen
            have hne : a.children ≠ [] := fun e => hlen (by simp [e])
            split at h
            · simp at h
            · rename_i hkl
              have hkl' : a.children.length = b.children.length ∧ a.kind = b.kind := by
                constructor
                · exact Classical.byContradiction fun e => hkl (Or.inl e)
                · exact Classical.byContradiction fun e => hkl (Or.inr e)
              refine ih _ _ _ ctx' ⟨hi.ext, hi.only, ?_, ?_, ?_, ?_⟩ h
              · intro q hq
                rcases List.mem_append.mp hq with hq | hq
                · obtain ⟨c, d⟩ := q
                  have := (List.of_mem_zip (List.mem_reverse.mp hq)).1
                  obtain ⟨r, hr, hs⟩ := hsub
                  exact ⟨r, hr, (Sub.of_child this (.refl c)).trans hs⟩
                · exact hi.sub q (by simp [hq])
              · exact fun x y hxy => tr _ _ _ (hi.root x y hxy)
              · intro x y hxy hx
                rcases List.mem_cons.mp hxy with e | hxy
                · cases e; exact absurd hx hne
                · exact hi.leaf x y hxy hx
              · intro x y hxy hx
                rcases List.mem_cons.mp hxy with e | hxy
                · cases e
                  refine ⟨hkl'.2, hkl'.1, ?_⟩
                  intro c d hm
                  exact Or.inr (Or.inr (by simp [hm]))
                · obtain ⟨h1, h2, h3⟩ := hi.node x y hxy hx
                  exact ⟨h1, h2, fun c d hm => tr _ c d (h3 c d hm)⟩

theorem matchLoop_sound' {n : Nat} {rs : List (Term × Term)} {ctx ctx' : Ctx} (h : matchLoop n rs [] ctx = some (true, ctx')) :
    ∃ vis', MInv rs ctx [] vis' ctx' := by
  refine matchLoop_sound rs ctx _ _ _ _ ctx' ⟨fun _ _ h => h, fun _ _ h => Or.inl h, ?_, ?_, ?_, ?_⟩ h
  · intro q hq; exact ⟨q, hq, .refl _⟩
  · intro a b h; exact .inr (.inr h)
  · simp
  · simp

theorem matchTerm_sound {a b : Term} {ctx ctx' : Ctx} (h : matchTerm a b ctx = some (true, ctx')) :
    ∃ vis', MInv [(a, b)] ctx [] vis' ctx' :=
  matchLoop_sound' h

/-- matching of several pairs sharing context and visited set -/
theorem matchLoop_instance {n : Nat} {rs : List (Term × Term)} {ctx ctx' : Ctx} (h : matchLoop n rs [] ctx = some (true, ctx')) :
    (∀ a b, (a, b) ∈ rs → subst (ctxSub ctx') a = b ∧ ∀ p, Sub p a → IsParam p → ∃ v, ctx'.find p = some v) ∧
    (∀ p v, ctx.find p = some v → ctx'.find p = some v) ∧
    (∀ p v, ctx'.find p = some v → ctx.find p = some v ∨ (IsParam p ∧ ∃ r ∈ rs, Sub p r.1)) := by
  obtain ⟨vis, hi⟩ := matchLoop_sound' h
  exact ⟨hi.finish, hi.ext, hi.only⟩

theorem zip_map_self (f : Term → Term) (cs : List Term) : cs.zip (cs.map f) = cs.map (fun c => (c, f c)) := by
  induction cs with
  | nil => rfl
  | cons c cs ih => simp [ih]

/-- completeness: if every pair on the stack is an instance under `σ`, matching cannot fail -/
theorem matchLoop_complete (σ : Term → Term) :
    ∀ (n : Nat) (st vis : List (Term × Term)) (ctx : Ctx), psizes st ≤ n →
    (∀ q ∈ st, subst σ q.1 = q.2 ∧ ∀ s, Sub s q.1 → ¬ IsAny s) →
    (∀ q ∈ st, ∀ p v, Sub p q.1 → IsParam p → ctx.find p = some v → v = σ p) →
    ∃ ctx', matchLoop n st vis ctx = some (true, ctx') := by
  intro n
  induction n with
  | zero =>
    intro st vis ctx hn _ _
    cases st with
    | nil => exact ⟨ctx, rfl⟩
    | cons p st =>
      obtain ⟨a, b⟩ := p
      have := size_pos a
      rw [psizes_cons] at hn; omega
  | succ n ih =>
    intro st vis ctx hn hinst hcomp
    cases st with
    | nil => exact ⟨ctx, rfl⟩
    | cons p st =>
      obtain ⟨a, b⟩ := p
      have hp := size_pos a
      rw [psizes_cons] at hn
      have hab := hinst (a, b) (by simp)
      simp only at hab
      have hrest : ∀ q ∈ st, subst σ q.1 = q.2 ∧ ∀ s, Sub s q.1 → ¬ IsAny s := fun q hq => hinst q (by simp [hq])
      have hcrest : ∀ q ∈ st, ∀ p v, Sub p q.1 → IsParam p → ctx.find p = some v → v = σ p :=
        fun q hq => hcomp q (by simp [hq])
      rw [matchLoop]
      split
      · rename_i hg
        rw [subst_ground σ a hg] at hab
        rw [if_pos hab.1]
        exact ih st vis ctx (by omega) hrest hcrest
      · rename_i hng
        split
        · exact ih st vis ctx (by omega) hrest hcrest
        · split
          · rename_i hlen
            have hnil : a.children = [] := List.length_eq_zero_iff.mp hlen
            have hk : a.kind = PARAM := by
              have h1 : a.ground = false := by simpa using hng
              rw [ground_leaf a hnil] at h1
              simp [leafNonGround] at h1
              exact Classical.byContradiction fun h0 => hab.2 a (.refl a) ⟨h1 h0, hnil⟩
            have hσ : σ a = b := by rw [← leaf_param_eq σ a ⟨hk, hnil⟩]; exact hab.1
            rw [if_pos hk]
            split
            · refine ih st _ _ (by omega) hrest ?_
              intro q hq p v hpq hpp hf
              rw [find_cons] at hf
              split at hf
              · rename_i hpa
                cases hf; rw [hpa]; exact hσ.symm
              · exact hcrest q hq p v hpq hpp hf
            · rename_i v hf
              have := hcomp (a, b) (by simp) a v (.refl a) ⟨hk, hnil⟩ hf
              rw [if_neg (by rw [this, hσ]; simp)]
              exact ih st _ _ (by omega) hrest hcrest
          · rename_i hlen
            have hne : a.children ≠ [] := fun e => hlen (by simp [e])
            cases a with
            | sym k i => simp [children] at hne
            | lit l => simp [children] at hne
            | node k cs =>
              simp only [children] at hne
              rw [subst, if_neg (by simp [hne])] at hab
              obtain ⟨hab, hany⟩ := hab
              subst hab
              simp only [children, kind, substs_eq_map, List.length_map, ne_eq, not_true_eq_false, or_self, if_false]
              have hz : ∀ q ∈ (cs.zip (cs.map (subst σ))).reverse, q.1 ∈ cs ∧ subst σ q.1 = q.2 := by
                intro q hq
                rw [List.mem_reverse] at hq
                have hm := List.of_mem_zip (a := q.1) (b := q.2) hq
                refine ⟨hm.1, ?_⟩
                rw [zip_map_self, List.mem_map] at hq
                obtain ⟨c, _, rfl⟩ := hq
                rfl
              refine ih _ _ _ ?_ ?_ ?_
              · have h1 := psizes_zip cs (cs.map (subst σ))
                have h2 := size_children (.node k cs)
                simp only [children] at h2
                rw [psizes_append]; omega
              · intro q hq
                rcases List.mem_append.mp hq with hq | hq
                · exact ⟨(hz q hq).2, fun s hs => hany s (Sub.of_child (t := .node k cs) (hz q hq).1 hs)⟩
                · exact hrest q hq
              · intro q hq p v hpq
                rcases List.mem_append.mp hq with hq | hq
                · exact hcomp (.node k cs, .node k (substs σ cs)) (by simp) p v (Sub.of_child (t := .node k cs) (hz q hq).1 hpq)
                · exact hcrest q hq p v hpq

theorem subst_inj (σ τ : Term → Term) : ∀ (a : Term), subst σ a = subst τ a →
    ∀ p, Sub p a → IsParam p → σ p = τ p := by
  intro a
  induction a using Term.induct' with
  | h a ih =>
    intro he p hp hpp
    rcases hp.inv with rfl | ⟨c, hc, hs⟩
    · rwa [leaf_param_eq _ _ hpp, leaf_param_eq _ _ hpp] at he
    · cases a with
      | sym k i => simp [children] at hc
      | lit l => simp [children] at hc
      | node k cs =>
        simp only [children] at hc
        have hne : ¬ (k = PARAM ∧ cs = []) := by rintro ⟨_, h⟩; subst h; simp at hc
        rw [subst, subst, if_neg hne, if_neg hne, substs_eq_map, substs_eq_map] at he
        simp only [Term.node.injEq, true_and] at he
        have := List.map_inj_left.mp he c hc
        exact ih c hc this p hs hpp

end Ethos
