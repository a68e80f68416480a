import Verif.Spec.Rename
import Verif.Props.SafetyBuild
import Verif.Lemmas.Preserve
/-
Terms, matching and list operators commute with an exchange of symbols (C78).
-/
namespace Ethos.Props
open Ethos Kind Spec Term

theorem renames_map (f : Kind → Nat → Nat) : ∀ cs, renames f cs = cs.map (rename f)
  | [] => rfl
  | c :: cs => by rw [renames, renames_map f cs]; rfl

section
variable (ρ : Renaming)

theorem ren_sym (k : Kind) (i : Nat) : ρ.term (.sym k i) = .sym k (ρ.to k i) := by simp [Renaming.term, rename]
theorem ren_lit (l : Lit) : ρ.term (.lit l) = .lit l := by simp [Renaming.term, rename]
theorem ren_node (k : Kind) (cs : List Term) : ρ.term (.node k cs) = .node k (cs.map ρ.term) := by
  simp only [Renaming.term, rename, renames_map]
theorem ren_kind (t : Term) : (ρ.term t).kind = t.kind := by
  cases t <;> simp [ren_sym, ren_lit, ren_node, Term.kind]
theorem ren_children (t : Term) : (ρ.term t).children = t.children.map ρ.term := by
  cases t <;> simp [ren_sym, ren_lit, ren_node, Term.children]

theorem back_term (t : Term) : ρ.back (ρ.term t) = t := by
  induction t using Term.induct with
  | hsym k i => simp [Renaming.back, ren_sym, rename, ρ.inv_to]
  | hlit l => simp [Renaming.back, ren_lit, rename]
  | hnode k cs ih =>
    simp only [ren_node, Renaming.back, rename, renames_map, List.map_map]
    congr 1
    exact (List.map_congr_left (g := id) (fun c hc => ih c hc)).trans (by simp)

theorem ren_inj {a b : Term} : ρ.term a = ρ.term b ↔ a = b :=
  ⟨fun h => by rw [← back_term ρ a, h, back_term], fun h => h ▸ rfl⟩

theorem rens_inj {a b : List Term} : a.map ρ.term = b.map ρ.term ↔ a = b :=
  List.map_inj_right fun _ _ h => (ren_inj ρ).1 h

theorem ren_opt_inj {a b : Option Term} : a.map ρ.term = b.map ρ.term ↔ a = b := by
  cases a <;> cases b <;> simp [ren_inj]

theorem ren_ground (t : Term) : (ρ.term t).ground = t.ground := by
  induction t using Term.induct with
  | hsym k i => simp [ren_sym, Term.ground]
  | hlit l => simp [ren_lit]
  | hnode k cs ih =>
    rw [ren_node]
    cases cs with
    | nil => rfl
    | cons c cs =>
      have : ∀ l : List Term, (∀ c ∈ l, (ρ.term c).ground = c.ground) → Term.grounds (l.map ρ.term) = Term.grounds l := by
        intro l
        induction l with
        | nil => simp
        | cons a l ih' => intro h; simp only [List.map_cons, Term.grounds]; rw [h a (by simp), ih' fun c hc => h c (by simp [hc])]
      simp only [List.map_cons, Term.ground]
      rw [ih c (by simp), this cs fun c hc => ih c (by simp [hc])]

theorem ren_evaluatable (t : Term) : (ρ.term t).evaluatable = t.evaluatable := by
  induction t using Term.induct with
  | hsym k i => simp [ren_sym, Term.evaluatable]
  | hlit l => simp [ren_lit]
  | hnode k cs ih =>
    rw [ren_node]
    cases cs with
    | nil => rfl
    | cons c cs =>
      have : ∀ l : List Term, (∀ c ∈ l, (ρ.term c).evaluatable = c.evaluatable) → Term.evaluatables (l.map ρ.term) = Term.evaluatables l := by
        intro l
        induction l with
        | nil => simp
        | cons a l ih' => intro h; simp only [List.map_cons, Term.evaluatables]; rw [h a (by simp), ih' fun c hc => h c (by simp [hc])]
      simp only [List.map_cons, Term.evaluatable]
      rw [ih c (by simp), this cs fun c hc => ih c (by simp [hc])]

theorem ren_size (t : Term) : (ρ.term t).size = t.size := by
  induction t using Term.induct with
  | hsym k i => simp [ren_sym, Term.size]
  | hlit l => simp [ren_lit]
  | hnode k cs ih =>
    rw [ren_node]
    simp only [Term.size]
    congr 1
    induction cs with
    | nil => rfl
    | cons a l ih' => simp only [List.map_cons, Term.sizes]; rw [ih a (by simp), ih' fun c hc => ih c (by simp [hc])]

theorem ren_sizes (l : List Term) : Term.sizes (l.map ρ.term) = Term.sizes l := by
  induction l with
  | nil => rfl
  | cons a l ih' => simp only [List.map_cons, Term.sizes]; rw [ren_size, ih']

theorem ren_lookup {β γ : Type} (g : β → γ) (a : Term) (l : List (Term × β)) : (l.map fun p => (ρ.term p.1, g p.2)).lookup (ρ.term a) = (l.lookup a).map g := by
  induction l with
  | nil => rfl
  | cons p l ih =>
    simp only [List.map_cons, List.lookup]
    by_cases h : a = p.1
    · simp [h]
    · have h' : ρ.term a ≠ ρ.term p.1 := fun e => h ((ren_inj ρ).1 e)
      simp [beq_eq_false_iff_ne.2 h, beq_eq_false_iff_ne.2 h', ih]

theorem ren_find (c : Ctx) (a : Term) : (ρ.ctx c).find (ρ.term a) = (c.find a).map ρ.term := ren_lookup ρ _ a c

theorem ren_app2 (f a b : Term) : ρ.term (app2 f a b) = app2 (ρ.term f) (ρ.term a) (ρ.term b) := by simp [app2, ren_node]

/-! matching -/

/-- pairs -/
def _root_.Ethos.Spec.Renaming.pairs (l : List (Term × Term)) : List (Term × Term) := l.map fun p => (ρ.term p.1, ρ.term p.2)

theorem ren_mem_pairs {a b : Term} {l : List (Term × Term)} : (ρ.term a, ρ.term b) ∈ Renaming.pairs ρ l ↔ (a, b) ∈ l := by
  simp only [Renaming.pairs, List.mem_map, Prod.mk.injEq, ren_inj]
  constructor
  · rintro ⟨p, h, rfl, rfl⟩; exact h
  · intro h; exact ⟨_, h, rfl, rfl⟩

theorem ren_matchLoop : ∀ (n : Nat) (st vis : List (Term × Term)) (ctx : Ctx),
    matchLoop n (Renaming.pairs ρ st) (Renaming.pairs ρ vis) (ρ.ctx ctx) = (matchLoop n st vis ctx).map fun r => (r.1, ρ.ctx r.2)
  | n, [], vis, ctx => by simp [matchLoop, Renaming.pairs]
  | 0, p :: st, vis, ctx => by simp [matchLoop, Renaming.pairs]
  | n+1, (a, b) :: st, vis, ctx => by
    have ih := ren_matchLoop n
    have hp : Renaming.pairs ρ ((a, b) :: st) = (ρ.term a, ρ.term b) :: Renaming.pairs ρ st := rfl
    have hv : (ρ.term a, ρ.term b) :: Renaming.pairs ρ vis = Renaming.pairs ρ ((a, b) :: vis) := rfl
    have hc : (ρ.term a, ρ.term b) :: ρ.ctx ctx = ρ.ctx ((a, b) :: ctx) := rfl
    have hz : ((a.children.map ρ.term).zip (b.children.map ρ.term)).reverse ++ Renaming.pairs ρ st = Renaming.pairs ρ ((a.children.zip b.children).reverse ++ st) := by
      simp [Renaming.pairs, List.zip_map, Prod.map]
    rw [hp, matchLoop, matchLoop]
    simp only [ren_ground, ren_inj, ren_mem_pairs, ren_children, ren_kind, List.length_map, ren_find, hv, hc, hz]
    by_cases h1 : a.ground = true
    · simp only [h1, if_true]
      by_cases h2 : a = b
      · simp only [h2, if_true]; exact ih ..
      · simp [h2]
    · simp only [h1, Bool.false_eq_true, if_false]
      by_cases h2 : (a, b) ∈ vis
      · simp only [h2, if_true]; exact ih ..
      · simp only [h2, if_false]
        by_cases h3 : a.children.length = 0
        · simp only [h3, if_true]
          by_cases h4 : a.kind = PARAM
          · simp only [h4, if_true]
            cases hf : ctx.find a with
            | none => simp only [Option.map_none]; exact ih ..
            | some v =>
              simp only [Option.map_some, ren_inj, ne_eq]
              by_cases h5 : v = b
              · simp only [h5, not_true, if_false]; exact ih ..
              · simp [h5]
          · simp [h4]
        · simp only [h3, if_false]
          by_cases h4 : a.children.length ≠ b.children.length ∨ a.kind ≠ b.kind
          · simp [h4]
          · simp only [h4, if_false]; exact ih ..

theorem ren_matchTerm (a b : Term) (ctx : Ctx) : matchTerm (ρ.term a) (ρ.term b) (ρ.ctx ctx) = (matchTerm a b ctx).map fun r => (r.1, ρ.ctx r.2) := by
  have := ren_matchLoop ρ (Term.size a) [(a, b)] [] ctx
  rw [matchTerm, ren_size]
  exact this

theorem ren_matchArgs : ∀ (ps ts : List Term) (ctx : Ctx), matchArgs (ps.map ρ.term) (ts.map ρ.term) (ρ.ctx ctx) = (matchArgs ps ts ctx).map ρ.ctx
  | p :: ps, t :: ts, ctx => by
    simp only [List.map_cons, matchArgs, ren_matchTerm]
    cases h : matchTerm p t ctx with
    | none => rfl
    | some r =>
      obtain ⟨b, c⟩ := r
      cases b
      · rfl
      · exact ren_matchArgs ps ts c
  | [], ts, ctx => by cases ts <;> simp [matchArgs]
  | _ :: _, [], ctx => by simp [matchArgs]

/-! lists -/

/-- results -/
def _root_.Ethos.Spec.Renaming.res (r : Res Term) : Res Term := match r with | .val t => .val (ρ.term t) | .null => .null | .ub => .ub

theorem res_bind {x : Res Term} {f g : Term → Res Term} (h : ∀ t, g (ρ.term t) = ρ.res (f t)) : (ρ.res x).bind g = ρ.res (x.bind f) := by
  cases x <;> simp [Renaming.res, Res.bind]
  exact h _

theorem ren_argAt (args : List Term) (i : Nat) : argAt (args.map ρ.term) i = ρ.res (argAt args i) := by
  simp only [argAt, List.getElem?_map]
  cases args[i]? <;> rfl

theorem ren_pattern {e o x y : Term} {r1 r2 : List Term} (h : ρ.term e = .node APPLY (.node APPLY (o :: x :: r1) :: y :: r2)) :
    ∃ o x r1 y r2, e = .node APPLY (.node APPLY (o :: x :: r1) :: y :: r2) := by
  refine ⟨ρ.back o, ρ.back x, r1.map ρ.back, ρ.back y, r2.map ρ.back, ?_⟩
  rw [← back_term ρ e, h]
  simp [Renaming.back, rename, renames_map]

theorem ren_naryLoop (op : Term) (isLeft : Bool) (e : Term) :
    naryLoop (ρ.term op) isLeft (ρ.term e) = ((naryLoop op isLeft e).1.map ρ.term, ρ.term (naryLoop op isLeft e).2) := by
  fun_induction naryLoop op isLeft e with
  | case1 x r1 y r2 hl cs e h1 ih =>
    rw [h1] at ih
    subst hl
    simp only [ren_node, List.map_cons, naryLoop, if_true]
    rw [ih]
  | case2 x r1 y r2 hl cs e h2 ih =>
    rw [h2] at ih
    rw [Bool.not_eq_true] at hl
    subst hl
    simp only [ren_node, List.map_cons, naryLoop, if_true]
    rw [ih]
    simp
  | case3 o x r1 y r2 h =>
    simp only [ren_node, List.map_cons, naryLoop, ren_inj, h, if_false, List.map_nil]
  | case4 e h =>
    rw [naryLoop]
    · simp
    · intro o x r1 y r2 he
      obtain ⟨o, x, r1, y, r2, rfl⟩ := ren_pattern ρ he
      exact h o x r1 y r2 rfl

theorem ren_getNAryChildren (op nil : Term) (isLeft : Bool) (e : Term) :
    getNAryChildren (ρ.term op) (ρ.term nil) isLeft (ρ.term e) = (getNAryChildren op nil isLeft e).map (List.map ρ.term) := by
  simp only [getNAryChildren, ren_naryLoop, ne_eq, ren_inj]
  split <;> simp

theorem ren_isNAryList (op nil : Term) (isLeft : Bool) (e : Term) : isNAryList (ρ.term op) (ρ.term nil) isLeft (ρ.term e) = isNAryList op nil isLeft e := by
  simp [isNAryList, ren_naryLoop, ren_inj]

theorem ren_prependNAry (op : Term) (isLeft : Bool) (ret : Term) (l : List Term) :
    prependNAry (ρ.term op) isLeft (ρ.term ret) (l.map ρ.term) = ρ.term (prependNAry op isLeft ret l) := by
  unfold prependNAry
  split
  · induction l generalizing ret with
    | nil => rfl
    | cons a l ih => simp only [List.map_cons, List.foldl_cons, ← ren_app2]; exact ih _
  · induction l with
    | nil => rfl
    | cons a l ih => simp only [List.map_cons, List.foldr_cons, ih, ← ren_app2]

theorem ren_nthTail (isLeft : Bool) (n : Nat) (e : Term) : nthTail isLeft n (ρ.term e) = ρ.term (nthTail isLeft n e) := by
  fun_induction nthTail isLeft n e with
  | case1 => simp [nthTail]
  | case2 n _ x _ y _ ih =>
    simp only [ren_node, List.map_cons, nthTail]
    rw [← ih]
    cases isLeft <;> rfl
  | case3 n e h =>
    rw [nthTail]
    intro o x r1 y r2 he
    obtain ⟨o, x, r1, y, r2, rfl⟩ := ren_pattern ρ he
    exact h o x r1 y r2 rfl

theorem ren_eraseLoop (x : Term) (isAll : Bool) : ∀ (l : List Term) (i : Nat) (r : List Term) (ci cs : Nat),
    eraseLoop (ρ.term x) isAll (l.map ρ.term) i (r.map ρ.term) ci cs = ((eraseLoop x isAll l i r ci cs).1.map ρ.term, (eraseLoop x isAll l i r ci cs).2)
  | [], _, _, _, _ => rfl
  | h :: l, i, r, ci, cs => by
    simp only [List.map_cons, eraseLoop, ren_inj]
    have : r.map ρ.term ++ [ρ.term h] = (r ++ [h]).map ρ.term := by simp
    rw [this]
    split
    · split
      · rw [List.length_map]; exact ren_eraseLoop x isAll l ..
      · rfl
    · exact ren_eraseLoop x isAll l ..

theorem ren_listErase (isAll : Bool) (op nil : Term) (isLeft : Bool) (l x : Term) :
    listErase isAll (ρ.term op) (ρ.term nil) isLeft (ρ.term l) (ρ.term x) = ρ.res (listErase isAll op nil isLeft l x) := by
  simp only [listErase, ren_getNAryChildren]
  cases getNAryChildren op nil isLeft l with
  | none => rfl
  | some hs =>
    simp only [Option.map_some]
    have := ren_eraseLoop ρ x isAll hs 0 [] 0 0
    simp only [List.map_nil] at this
    rw [this]
    simp only
    split
    · rfl
    · simp only [Renaming.res, ren_nthTail, ← List.map_take, Res.val.injEq]
      rw [← ren_prependNAry]
      split <;> rfl

theorem ren_setOfLoop : ∀ (l : List Term) (i : Nat) (s r : List Term) (ci cs : Nat),
    setOfLoop (l.map ρ.term) i (s.map ρ.term) (r.map ρ.term) ci cs = ((setOfLoop l i s r ci cs).1.map ρ.term, (setOfLoop l i s r ci cs).2)
  | [], _, _, _, _, _ => rfl
  | h :: l, i, s, r, ci, cs => by
    have hm : ρ.term h ∈ s.map ρ.term ↔ h ∈ s := by
      simp only [List.mem_map, ren_inj, exists_eq_right]
    simp only [List.map_cons, setOfLoop, hm]
    have : r.map ρ.term ++ [ρ.term h] = (r ++ [h]).map ρ.term := by simp
    rw [this, ← List.map_cons]
    split
    · rw [List.length_map]; exact ren_setOfLoop l ..
    · exact ren_setOfLoop l ..

theorem ren_listSetOf (op nil : Term) (isLeft : Bool) (l : Term) : listSetOf (ρ.term op) (ρ.term nil) isLeft (ρ.term l) = ρ.res (listSetOf op nil isLeft l) := by
  simp only [listSetOf, ren_getNAryChildren]
  cases getNAryChildren op nil isLeft l with
  | none => rfl
  | some hs =>
    simp only [Option.map_some]
    have := ren_setOfLoop ρ hs 0 [] [] 0 0
    simp only [List.map_nil] at this
    rw [this]
    simp only
    split
    · rfl
    · simp only [Renaming.res, ren_nthTail, ← List.map_take, ren_prependNAry]

/-- multiplicities -/
def _root_.Ethos.Spec.Renaming.mult (m : List (Term × Nat)) : List (Term × Nat) := m.map fun p => (ρ.term p.1, id p.2)

theorem ren_bump (m : List (Term × Nat)) (e : Term) : bump (ρ.mult m) (ρ.term e) = ρ.mult (bump m e) := by
  induction m with
  | nil => rfl
  | cons p m ih =>
    obtain ⟨k, n⟩ := p
    show bump ((ρ.term k, n) :: ρ.mult m) (ρ.term e) = _
    simp only [bump, ren_inj]
    split
    · rfl
    · rw [ih]; rfl

theorem ren_decr (m : List (Term × Nat)) (e : Term) : decr (ρ.mult m) (ρ.term e) = ρ.mult (decr m e) := by
  induction m with
  | nil => rfl
  | cons p m ih =>
    obtain ⟨k, n⟩ := p
    show decr ((ρ.term k, n) :: ρ.mult m) (ρ.term e) = _
    simp only [decr, ren_inj]
    split
    · split <;> rfl
    · rw [ih]; rfl

theorem ren_counts (l : List Term) : counts (l.map ρ.term) = ρ.mult (counts l) := by
  have : ∀ (l : List Term) (m : List (Term × Nat)), (l.map ρ.term).foldl bump (ρ.mult m) = ρ.mult (l.foldl bump m) := by
    intro l
    induction l with
    | nil => intro m; rfl
    | cons a l ih => intro m; simp only [List.map_cons, List.foldl_cons, ren_bump, ih]
  exact this l []

theorem ren_multLookup (m : List (Term × Nat)) (e : Term) : (ρ.mult m).lookup (ρ.term e) = m.lookup e := by
  rw [Renaming.mult, ren_lookup]; simp

theorem ren_countOf (m : List (Term × Nat)) (e : Term) : countOf (ρ.mult m) (ρ.term e) = countOf m e := by simp [countOf, ren_multLookup]

theorem ren_listMPred (isEq : Bool) (op nil : Term) (isLeft : Bool) (l1 l2 : Term) :
    listMPred isEq (ρ.term op) (ρ.term nil) isLeft (ρ.term l1) (ρ.term l2) = ρ.res (listMPred isEq op nil isLeft l1 l2) := by
  simp only [listMPred, ren_getNAryChildren]
  cases getNAryChildren op nil isLeft l1 with
  | none => rfl
  | some h1 =>
    cases getNAryChildren op nil isLeft l2 with
    | none => rfl
    | some h2 =>
      simp only [Option.map_some, ren_inj, ren_counts]
      have hl : ∀ m, (ρ.mult m).length = m.length := by simp [Renaming.mult]
      have ha : ∀ c1 c2 : List (Term × Nat), (ρ.mult c1).any (fun e => if isEq = true then decide (countOf (ρ.mult c2) e.1 ≠ e.2) else decide (countOf (ρ.mult c2) e.1 < e.2)) =
          c1.any (fun e => if isEq = true then decide (countOf c2 e.1 ≠ e.2) else decide (countOf c2 e.1 < e.2)) := by
        intro c1 c2
        rw [Renaming.mult, List.any_map]
        congr 1
        funext e
        simp only [Function.comp, ren_countOf, id]
      rw [ha, hl, hl]
      split
      · simp [Renaming.res, ren_lit]
      · split
        · simp [Renaming.res, ren_lit]
        · have : ∀ b : Bool, (if b = true then Res.val (lit (.bool false)) else Res.val (lit (.bool true))) =
              ρ.res (if b = true then Res.val (lit (.bool false)) else Res.val (lit (.bool true))) := by
            intro b; cases b <;> simp [Renaming.res, ren_lit]
          exact this _

theorem ren_diffLoop (isDiff : Bool) : ∀ (l : List Term) (i : Nat) (c2 : List (Term × Nat)) (r : List Term) (ci cs : Nat),
    diffLoop isDiff (l.map ρ.term) i (ρ.mult c2) (r.map ρ.term) ci cs = ((diffLoop isDiff l i c2 r ci cs).1.map ρ.term, (diffLoop isDiff l i c2 r ci cs).2)
  | [], _, _, _, _, _ => rfl
  | h :: l, i, c2, r, ci, cs => by
    have hc : (if (c2.lookup h).isSome then decr (ρ.mult c2) (ρ.term h) else ρ.mult c2) = ρ.mult (if (c2.lookup h).isSome then decr c2 h else c2) := by
      rw [ren_decr]; split <;> rfl
    simp only [List.map_cons, diffLoop, ren_multLookup]
    have : r.map ρ.term ++ [ρ.term h] = (r ++ [h]).map ρ.term := by simp
    rw [this, hc]
    split
    · rw [List.length_map]; exact ren_diffLoop isDiff l ..
    · exact ren_diffLoop isDiff l ..

theorem ren_listDiffInter (isDiff : Bool) (op nil : Term) (isLeft : Bool) (l1 l2 : Term) :
    listDiffInter isDiff (ρ.term op) (ρ.term nil) isLeft (ρ.term l1) (ρ.term l2) = ρ.res (listDiffInter isDiff op nil isLeft l1 l2) := by
  simp only [listDiffInter, ren_getNAryChildren]
  cases getNAryChildren op nil isLeft l1 with
  | none => rfl
  | some h1 =>
    cases getNAryChildren op nil isLeft l2 with
    | none => rfl
    | some h2 =>
      simp only [Option.map_some, ren_inj, ren_counts]
      have := ren_diffLoop ρ isDiff h1 0 (counts h2) [] 0 0
      simp only [List.map_nil] at this
      rw [this]
      split
      · cases isDiff <;> rfl
      · simp only
        split
        · rfl
        · simp only [Renaming.res, ren_nthTail, ← List.map_take, ren_prependNAry]

theorem ren_listRev (op nil : Term) (isLeft : Bool) (l : Term) : listRev (ρ.term op) (ρ.term nil) isLeft (ρ.term l) = ρ.res (listRev op nil isLeft l) := by
  simp only [listRev, ren_getNAryChildren]
  cases getNAryChildren op nil isLeft l with
  | none => rfl
  | some hs => simp only [Option.map_some, Renaming.res, ← List.map_reverse, ren_prependNAry]

theorem ren_indexOf (x : Term) (l : List Term) : indexOf (ρ.term x) (l.map ρ.term) = indexOf x l := by
  induction l with
  | nil => rfl
  | cons a l ih => simp only [List.map_cons, indexOf, ren_inj, ih]

theorem ren_evalListOp (k : Kind) (op nil : Term) (isLeft : Bool) (args : List Term) :
    evalListOp k (ρ.term op) (ρ.term nil) isLeft (args.map ρ.term) = ρ.res (evalListOp k op nil isLeft args) := by
  have hn : ∀ (l : Term) (f : List Term → Res Term) (g : List Term → Res Term), (∀ hs, g (hs.map ρ.term) = ρ.res (f hs)) →
      (match getNAryChildren (ρ.term op) (ρ.term nil) isLeft (ρ.term l) with | none => Res.null | some hs => g hs) =
        ρ.res (match getNAryChildren op nil isLeft l with | none => Res.null | some hs => f hs) := by
    intro l f g h
    rw [ren_getNAryChildren]
    cases getNAryChildren op nil isLeft l with
    | none => rfl
    | some hs => exact h hs
  unfold evalListOp
  simp only [ren_argAt]
  split
  · refine res_bind ρ fun t => ?_
    rw [ren_isNAryList]
    split
    · refine res_bind ρ fun a => ?_
      exact congrArg Res.val (ren_prependNAry ρ op isLeft t [a])
    · rfl
  · refine res_bind ρ fun t => ?_
    rw [ren_isNAryList]
    split
    · refine res_bind ρ fun a => hn a _ _ fun hs => ?_
      simp only [ren_inj]
      split
      · rfl
      · simp [Renaming.res, ren_prependNAry]
    · rfl
  · refine res_bind ρ fun l => hn l _ _ fun hs => ?_
    simp [Renaming.res, ren_lit]
  · refine res_bind ρ fun i => ?_
    cases i with
    | sym => rfl
    | node => simp [ren_node, Renaming.res]
    | lit l =>
      rw [ren_lit]
      cases l with
      | num z =>
        simp only
        split
        · refine res_bind ρ fun l => hn l _ _ fun hs => ?_
          simp only [List.getElem?_map]
          cases hs[Integer.toUnsignedInt z]? <;> rfl
        · rfl
      | _ => rfl
  · refine res_bind ρ fun l => hn l _ _ fun hs => ?_
    refine res_bind ρ fun x => ?_
    rw [ren_indexOf]
    cases indexOf x hs <;> simp [Renaming.res, ren_lit]
  · exact res_bind ρ fun l => res_bind ρ fun x => ren_listErase ..
  · exact res_bind ρ fun l => res_bind ρ fun x => ren_listErase ..
  · exact res_bind ρ fun l => ren_listRev ..
  · exact res_bind ρ fun l => ren_listSetOf ..
  · exact res_bind ρ fun l => res_bind ρ fun x => ren_listMPred ..
  · exact res_bind ρ fun l => res_bind ρ fun x => ren_listMPred ..
  · exact res_bind ρ fun l => res_bind ρ fun x => ren_listDiffInter ..
  · exact res_bind ρ fun l => res_bind ρ fun x => ren_listDiffInter ..
  · refine res_bind ρ fun l => hn l _ _ fun hs => ?_
    match hs with
    | [] => rfl
    | [x] => rfl
    | _ :: _ :: _ => rfl
  · rfl
end
end Ethos.Props
