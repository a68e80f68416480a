import Verif.Lemmas.Print
/-
Printing of shared terms: C51.
-/
namespace Ethos.Props
open Ethos Spec Kind

/-- C51: Printing a term, with or without definitions for shared terms, ends.  Every definition refers only to earlier ones, and definitions
and body together stand for what is printed without definitions. -/
theorem C51_expand {env : PrintEnv} (hw : Printable env) (e : Term) :
    ∃ n, ∀ f, n ≤ f → ∃ p q, printTerm env true f e = .ok p ∧ printTerm env false f e = .ok ([], q) ∧ (∀ x ∈ q, ∃ s, x = .text s) ∧ expand p = some (writePieces q) := by
  obtain ⟨n1, ll, h1, hnd, hne, llv, ⟨p, hp⟩, hnv, ho⟩ := computeLetBinding_done hw e
  obtain ⟨n2, h2⟩ := printBindings_done hw (letBinding ll) ll
  obtain ⟨n3, h3⟩ := printLoop_done hw (letBinding ll) e
  obtain ⟨n4, h4⟩ := printLoop_done hw [] e
  refine ⟨n1 + n2 + n3 + n4, fun f hf => ?_⟩
  refine ⟨(ll.map fun l => pieces hw ((letBinding ll).filter (·.1 ≠ l)) l, pieces hw (letBinding ll) e), pieces hw [] e, by simp only [printTerm, if_true, h1 f (by omega), Run.bind, h2 f (by omega), h3 f (by omega), Run.map],
    by simp [printTerm, h4 f (by omega), Run.map], ?_, ?_⟩
  · -- nothing is shared without definitions
    have : ∀ t, ∀ x ∈ pieces hw [] t, ∃ s, x = .text s := by
      intro t
      induction t using WellFounded.induction hw with
      | _ t ih =>
      cases hc : printChildren env t with
      | nil => rw [pieces_leaf hw rfl hc]; intro x hx; exact ⟨_, by simpa using hx⟩
      | cons c cs =>
        rw [pieces_node hw rfl hc]
        intro x hx
        simp only [List.cons_append, List.mem_cons, List.mem_append, List.mem_flatMap, List.mem_nil_iff, or_false] at hx
        rcases hx with rfl | (hx | ⟨d, hd, rfl | hx⟩) | rfl
        · exact ⟨_, rfl⟩
        · exact ih c (by rw [hc]; exact List.mem_cons_self ..) x hx
        · exact ⟨_, rfl⟩
        · exact ih d (by rw [hc]; exact List.mem_cons_of_mem _ hd) x hx
        · exact ⟨_, rfl⟩
    exact this e
  · have h5 := expandDefs_done hw hp hnv hne ho ll [] rfl
    simp only [List.map_nil] at h5
    simp only [expand, h5, Option.bind_some]
    refine subst_pieces hw e fun u j _ hj => ?_
    obtain ⟨i, rfl, hi⟩ := lookup_zipIdx hj
    simp [hi]

/-- names `f`, `g`, `a`, `x` and `_v0`, one variable of type `(f a a)` -/
def exPrintEnv : PrintEnv where
  varType := fun _ => .node APPLY [.node APPLY [.sym CONST 0, .sym CONST 2], .sym CONST 2]
  name := fun _ i => match i with | 0 => bytes "f" | 1 => bytes "g" | 2 => bytes "a" | 3 => bytes "x" | _ => bytes "_v0"
  ambiguous := fun _ => false

theorem exPrintEnv_printable : Printable exPrintEnv := by
  have hsub : ∀ t : Term, (∀ i, t ≠ .sym VARIABLE i) → (∀ c ∈ t.children, Acc (fun c t => c ∈ printChildren exPrintEnv t) c) →
      Acc (fun c t => c ∈ printChildren exPrintEnv t) t := by
    intro t h1 h2
    refine ⟨_, fun c hc => ?_⟩
    cases t with
    | node k cs => exact h2 c hc
    | lit l => simp [printChildren] at hc
    | sym k i =>
      cases k <;> simp [printChildren] at hc
      exact absurd rfl (h1 i)
  have hc : ∀ i, Acc (fun c t => c ∈ printChildren exPrintEnv t) (.sym CONST i) := fun i => hsub _ (by simp) (by simp [Term.children])
  have hv : ∀ i, Acc (fun c t => c ∈ printChildren exPrintEnv t) (exPrintEnv.varType i) := by
    intro i
    refine hsub _ (by simp [exPrintEnv]) ?_
    intro c hcc
    simp [exPrintEnv, Term.children] at hcc
    rcases hcc with rfl | rfl
    · refine hsub _ (by simp) ?_
      intro c hcc
      simp [Term.children] at hcc
      rcases hcc with rfl | rfl
      · exact hc 0
      · exact hc 2
    · exact hc 2
  refine ⟨fun t => ?_⟩
  induction t using Term.induct with
  | hlit l => exact hsub _ (by simp) (by simp [Term.children])
  | hnode k cs ih => exact hsub _ (by simp) ih
  | hsym k i =>
    by_cases hk : k = VARIABLE
    · subst hk
      refine ⟨_, fun c hcc => ?_⟩
      simp [printChildren] at hcc
      rw [hcc]; exact hv i
    · exact hsub _ (by simp [hk]) (by simp [Term.children])

/-- `(g x x (f a a))`, with the variable `x` -/
def exPrintTerm : Term := .node APPLY [.node APPLY [.node APPLY [.sym CONST 1, .sym VARIABLE 3], .sym VARIABLE 3], exPrintEnv.varType 0]

example : ∃ n, ∀ f, n ≤ f → ∃ p q, printTerm exPrintEnv true f exPrintTerm = .ok p ∧ printTerm exPrintEnv false f exPrintTerm = .ok ([], q) ∧
    (∀ x ∈ q, ∃ s, x = .text s) ∧ expand p = some (writePieces q) := C51_expand exPrintEnv_printable exPrintTerm

-- what is printed in this case
example : (printTerm exPrintEnv true 100 exPrintTerm).map (fun p => writeTerm 0 p.1 p.2) =
    .ok (bytes "(eo::define ((_v0 (_ (f a) a))) (eo::define ((_v1 (eo::var \"x\" _v0))) (_ (_ (g _v1) _v1) _v0)))") := by decide +kernel

/-- C51 fails for terms with symbols named like a definition: with definitions, two different terms are printed alike (here `_v0` is, in
the second one, a symbol). -/
theorem C51_capture_refuted :
    let fa : Term := .node APPLY [.sym CONST 0, .sym CONST 2]
    let t1 : Term := .node APPLY [.node APPLY [.node APPLY [.sym CONST 1, fa], fa], fa]
    let t2 : Term := .node APPLY [.node APPLY [.node APPLY [.sym CONST 1, fa], fa], .sym CONST 4]
    (printTerm exPrintEnv true 100 t1).map (fun p => writeTerm 0 p.1 p.2) = (printTerm exPrintEnv true 100 t2).map (fun p => writeTerm 0 p.1 p.2) ∧
    (printTerm exPrintEnv false 100 t1).map (fun p => writeTerm 0 p.1 p.2) ≠ (printTerm exPrintEnv false 100 t2).map (fun p => writeTerm 0 p.1 p.2) := by
  decide +kernel

end Ethos.Props
