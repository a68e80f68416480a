import Verif.Model.Path
import Verif.Spec.Path
/-
Paths of included files: C53.
-/
namespace Ethos.Props
open Ethos Spec

/-! ### The canonical path -/

theorem canonLoop_seg {x : List Nat} (hx : 47 ∉ x) : ∀ (cs d : List Nat) (st : Segments), canonLoop (x ++ cs) d st = canonLoop cs (d ++ x) st := by
  induction x with
  | nil => intro cs d st; simp
  | cons c x ih =>
    intro cs d st
    have hc : c ≠ 47 := fun e => hx (by simp [e])
    rw [List.cons_append, canonLoop, if_neg hc, ih (fun e => hx (by simp [e]))]
    simp

theorem canonLoop_text {l : List Nat} (hl : 47 ∉ l) : ∀ (ds : List (List Nat)) (st : Segments), (∀ d ∈ ds, 47 ∉ d) →
    canonLoop (ds.flatMap (· ++ [47]) ++ l) [] st = { ds.foldl Segments.add st with segs := (ds.foldl Segments.add st).segs ++ [l] }
  | [], st, _ => by
    have := canonLoop_seg hl [] [] st
    simp only [List.append_nil, List.nil_append] at this
    simp [this, canonLoop]
  | d :: ds, st, h => by
    have e : (d :: ds).flatMap (· ++ [47]) ++ l = d ++ (47 :: (ds.flatMap (· ++ [47]) ++ l)) := by simp
    rw [e, canonLoop_seg (h d (List.mem_cons_self ..))]
    simp only [canonLoop, if_true, List.nil_append, List.foldl_cons]
    exact canonLoop_text hl ds _ fun d hd => h d (List.mem_cons_of_mem _ hd)

theorem joinSegs_snoc : ∀ (ds : List (List Nat)) (l : List Nat), joinSegs (ds ++ [l]) = ds.flatMap (· ++ [47]) ++ l
  | [], l => by simp [joinSegs]
  | [d], l => by simp [joinSegs]
  | d :: e :: ds, l => by
    have := joinSegs_snoc (e :: ds) l
    simp only [List.cons_append] at this ⊢
    rw [joinSegs, this]
    · simp
    · simp

/-- the directories of a path that is not absolute do not begin with a slash -/
def WfDirs (a : Bool) (ds : List (List Nat)) (l : List Nat) : Prop := (∀ d ∈ ds, 47 ∉ d) ∧ 47 ∉ l ∧ (a = false → ds.head? ≠ some [])

theorem pathText_absolute {a ds l} (h : WfDirs a ds l) : isAbsolute (pathText a ds l) = a := by
  cases a with
  | true => simp [isAbsolute, pathText]
  | false =>
    cases ds with
    | nil =>
      cases l with
      | nil => simp [isAbsolute, pathText]
      | cons c l =>
        have : c ≠ 47 := fun e => h.2.1 (by simp [e])
        simp [isAbsolute, pathText, this]
    | cons d ds =>
      cases d with
      | nil => exact absurd rfl (h.2.2 rfl)
      | cons c d =>
        have : c ≠ 47 := fun e => h.1 _ (List.mem_cons_self ..) (by simp [e])
        simp [isAbsolute, pathText, this]

/-- the directories of the canonical path -/
def normal (ds : List (List Nat)) : List (List Nat) :=
  let st := ds.foldl Segments.add ⟨0, []⟩
  List.replicate st.parents (bytes "..") ++ st.segs

theorem canonical_text {a ds l} (h : WfDirs a ds l) : makeCanonical (pathText a ds l) = pathText a (normal ds) l := by
  unfold makeCanonical
  by_cases he : pathText a ds l = []
  · rw [if_pos he, he]
    cases a with
    | true => simp [pathText] at he
    | false =>
      simp [pathText] at he
      have : ds = [] := by
        cases ds with
        | nil => rfl
        | cons d ds => exact absurd (List.mem_cons_self ..) (he.1 d)
      subst this
      simp [pathText, normal, he]
  · rw [if_neg he, pathText_absolute h]
    have e : (if a = true then (pathText a ds l).drop 1 else pathText a ds l) = ds.flatMap (· ++ [47]) ++ l := by
      cases a <;> simp [pathText]
    simp only [e, canonLoop_text h.2.1 ds _ h.1, joinSegs_snoc]
    simp only [pathText, normal, List.flatMap_append]
    have : ∀ n, (List.replicate n (bytes "../")).flatten = (List.replicate n (bytes "..")).flatMap (· ++ [47]) := by
      intro n
      induction n with
      | zero => rfl
      | succ n ih => simp only [List.replicate_succ, List.flatten_cons, List.flatMap_cons, ih]; rfl
    rw [this]
    simp

theorem split_ne : ∀ s, split s ≠ []
  | [] => by simp [split]
  | c :: cs => by
    unfold split
    split
    · simp
    · split <;> simp

theorem split_seg {l : List Nat} (h : 47 ∉ l) : split l = [l] := by
  induction l with
  | nil => rfl
  | cons c l ih =>
    have hc : c ≠ 47 := fun e => h (by simp [e])
    rw [split, if_neg hc, ih (fun e => h (by simp [e]))]

theorem split_cons {d : List Nat} (h : 47 ∉ d) (s : List Nat) : split (d ++ 47 :: s) = d :: split s := by
  induction d with
  | nil => simp [split]
  | cons c d ih =>
    have hc : c ≠ 47 := fun e => h (by simp [e])
    rw [List.cons_append, split, if_neg hc, ih (fun e => h (by simp [e]))]

theorem split_text {ds : List (List Nat)} {l : List Nat} (hl : 47 ∉ l) (h : ∀ d ∈ ds, 47 ∉ d) : split (ds.flatMap (· ++ [47]) ++ l) = ds ++ [l] := by
  induction ds with
  | nil => simp [split_seg hl]
  | cons d ds ih =>
    have e : (d :: ds).flatMap (· ++ [47]) ++ l = d ++ (47 :: (ds.flatMap (· ++ [47]) ++ l)) := by simp
    rw [e, split_cons (h d (List.mem_cons_self ..)), ih fun d hd => h d (List.mem_cons_of_mem _ hd)]
    rfl

/-- every path is of the form `pathText` -/
theorem text_split (s : List Nat) : ∃ (ds : List (List Nat)) (l : List Nat), s = ds.flatMap (· ++ [47]) ++ l ∧ 47 ∉ l ∧ ∀ d ∈ ds, 47 ∉ d := by
  induction s with
  | nil => exact ⟨[], [], by simp⟩
  | cons c s ih =>
    obtain ⟨ds, l, h1, h2, h3⟩ := ih
    by_cases hc : c = 47
    · exact ⟨[] :: ds, l, by simp [hc, h1], h2, by simpa using h3⟩
    · cases ds with
      | nil => exact ⟨[], c :: l, by simp [h1], by simp [h2]; omega, by simp⟩
      | cons d ds =>
        refine ⟨(c :: d) :: ds, l, by simp [h1], h2, ?_⟩
        intro e he
        rcases List.mem_cons.mp he with rfl | he
        · have := h3 d (List.mem_cons_self ..)
          simp [this]; omega
        · exact h3 e (List.mem_cons_of_mem _ he)

theorem path_form (s : List Nat) : ∃ a ds l, s = pathText a ds l ∧ WfDirs a ds l ∧ (a = true ↔ s.head? = some 47) := by
  obtain ⟨ds, l, h1, h2, h3⟩ := text_split s
  by_cases ha : ds.head? = some []
  · cases ds with
    | nil => simp at ha
    | cons d ds =>
      have : d = [] := by simpa using ha
      subst this
      refine ⟨true, ds, l, by simp [h1, pathText], ⟨fun d hd => h3 d (List.mem_cons_of_mem _ hd), h2, by simp⟩, ?_⟩
      simp [h1]
  · have hw : WfDirs false ds l := ⟨h3, h2, fun _ => ha⟩
    refine ⟨false, ds, l, by simp [h1, pathText], hw, ?_⟩
    have := pathText_absolute hw
    simp only [isAbsolute, pathText, Bool.false_eq_true, if_false, List.nil_append, decide_eq_false_iff_not] at this
    rw [← h1] at this
    simp [this]

/-- a path denotes what its directories and its last segment denote -/
theorem walk_dot (st : List FTree) (hd : ∃ es up, st = .dir es :: up) (ds : List (List Nat)) : walk st ([] :: ds) = walk st ds := by
  obtain ⟨es, up, rfl⟩ := hd
  simp [walk]

theorem walk_append : ∀ (a b : List (List Nat)) (st : List FTree), walk st (a ++ b) = (walk st a).bind (walk · b)
  | [], b, st => by simp [walk]
  | d :: a, b, [] => by simp [walk]
  | d :: a, b, .file id :: up => by simp [walk]
  | d :: a, b, .dir es :: up => by
    simp only [List.cons_append, walk]
    split
    · exact walk_append a b _
    · split
      · exact walk_append a b _
      · cases es.lookup d with
        | none => rfl
        | some x => exact walk_append a b _

theorem walk_pathText {root : FTree} {cwd : List FTree} {a ds l} (h : WfDirs a ds l) (hr : ∃ es, root = .dir es) :
    walk (origin root cwd (pathText a ds l)) (split (pathText a ds l)) = walk (if a then [root] else cwd) (ds ++ [l]) := by
  have ha := pathText_absolute h
  have ho : origin root cwd (pathText a ds l) = if a then [root] else cwd := by
    unfold origin
    unfold isAbsolute at ha
    by_cases hh : (pathText a ds l).head? = some 47
    · rw [if_pos hh]; simp [hh] at ha; simp [ha]
    · rw [if_neg hh]; simp [hh] at ha; simp [ha]
  rw [ho]
  cases a with
  | false =>
    have : pathText false ds l = ds.flatMap (· ++ [47]) ++ l := by simp [pathText]
    rw [this, split_text h.2.1 h.1]
  | true =>
    have : pathText true ds l = 47 :: (ds.flatMap (· ++ [47]) ++ l) := by simp [pathText]
    rw [this, split, if_pos rfl, split_text h.2.1 h.1]
    obtain ⟨es, rfl⟩ := hr
    exact walk_dot _ ⟨es, [], rfl⟩ _

theorem walk_pos {st st' : List FTree} : ∀ {ds}, walk st ds = some st' → st ≠ [] → st' ≠ []
  | [], h, hn => by simp only [walk, Option.some.injEq] at h; exact h ▸ hn
  | d :: ds, h, hn => by
    match st with
    | [] => exact absurd rfl hn
    | .file _ :: _ => simp [walk] at h
    | .dir es :: up =>
      simp only [walk] at h
      split at h
      · exact walk_pos h (by simp)
      · split at h
        · refine walk_pos h ?_
          split
          · simp
          · assumption
        · cases he : es.lookup d with
          | none => simp [he] at h
          | some x => rw [he] at h; exact walk_pos h (by simp)

/-- going to a directory and back -/
theorem walk_name {st st' : List FTree} {x : List Nat} (hx : x ≠ [] ∧ x ≠ bytes "." ∧ x ≠ bytes "..") (h : walk st [x] = some st') : ∃ y, st' = y :: st ∧ ∃ es up, st = .dir es :: up := by
  match st with
  | [] => simp [walk] at h
  | .file _ :: _ => simp [walk] at h
  | .dir es :: up =>
    simp only [walk] at h
    rw [if_neg (by simp [hx]), if_neg hx.2.2] at h
    cases he : es.lookup x with
    | none => simp [he] at h
    | some y =>
      simp [he] at h
      exact ⟨y, h.symm, es, up, rfl⟩

theorem walk_parent {y : FTree} {st st' : List FTree} (h : walk (y :: st) [bytes ".."] = some st') (hn : st ≠ []) : st' = st := by
  match y with
  | .file _ => simp [walk] at h
  | .dir es =>
    simp only [walk] at h
    rw [if_neg (by decide), if_pos trivial, if_neg hn] at h
    exact (Option.some.inj h).symm

theorem segs_names {ds : List (List Nat)} (hs : ∀ d ∈ ds, 47 ∉ d) : ∀ st : Segments, (∀ x ∈ st.segs, FileName x) → ∀ x ∈ (ds.foldl Segments.add st).segs, FileName x := by
  induction ds with
  | nil => intro st h; exact h
  | cons d ds ih =>
    intro st h
    refine ih (fun d hd => hs d (List.mem_cons_of_mem _ hd)) _ ?_
    unfold Segments.add
    split
    · exact h
    · split
      · exact h
      · split
        · split
          · exact h
          · intro x hx; exact h x (List.dropLast_subset _ hx)
        · rename_i h1 h2 h3
          intro x hx
          rcases List.mem_append.mp hx with hx | hx
          · exact h x hx
          · simp at hx
            rw [hx]
            exact ⟨h1, h2, h3, hs d (List.mem_cons_self ..)⟩

/-- the canonical directories lead where the directories lead -/
theorem walk_fold {st0 : List FTree} (h0 : st0 ≠ []) : ∀ (ds : List (List Nat)) (sg : Segments) {st1 st2 : List FTree}, (∀ d ∈ ds, 47 ∉ d) → (∀ x ∈ sg.segs, FileName x) →
    walk st0 (List.replicate sg.parents (bytes "..") ++ sg.segs) = some st1 → walk st1 ds = some st2 →
    walk st0 (List.replicate (ds.foldl Segments.add sg).parents (bytes "..") ++ (ds.foldl Segments.add sg).segs) = some st2
  | [], sg, st1, st2, _, _, h1, h2 => by
    simp only [walk, Option.some.injEq] at h2
    simpa [← h2] using h1
  | d :: ds, sg, st1, st2, hs, hn, h1, h2 => by
    have h2' : walk st1 ([d] ++ ds) = some st2 := h2
    rw [walk_append] at h2'
    obtain ⟨st, h3, h4⟩ := Option.bind_eq_some_iff.mp h2'
    have hs' : ∀ d ∈ ds, 47 ∉ d := fun d hd => hs d (List.mem_cons_of_mem _ hd)
    refine walk_fold h0 ds (sg.add d) hs' (segs_names (ds := [d]) (by simpa using hs d (List.mem_cons_self ..)) sg hn) ?_ h4
    have hp : st1 ≠ [] := walk_pos h1 h0
    unfold Segments.add
    split
    · rename_i hd
      rw [h1]
      subst hd
      match st1 with
      | .dir es :: up => simpa [walk] using h3
      | .file _ :: _ => simp [walk] at h3
      | [] => simp [walk] at h3
    · split
      · rename_i hd
        rw [h1]
        subst hd
        match st1 with
        | .dir es :: up => simpa [walk] using h3
        | .file _ :: _ => simp [walk] at h3
        | [] => simp [walk] at h3
      · split
        · rename_i hd
          split
          · rename_i hsg
            rw [hsg, List.append_nil] at h1
            simp only [hsg, List.append_nil]
            rw [List.replicate_succ', walk_append, h1]
            rw [hd] at h3
            exact h3
          · rename_i hsg
            have e : sg.segs = sg.segs.dropLast ++ [sg.segs.getLast hsg] := (List.dropLast_concat_getLast hsg).symm
            rw [e, ← List.append_assoc, walk_append] at h1
            obtain ⟨st', h5, h6⟩ := Option.bind_eq_some_iff.mp h1
            obtain ⟨y, rfl, -⟩ := walk_name (let h := hn _ (List.getLast_mem hsg); ⟨h.1, h.2.1, h.2.2.1⟩) h6
            rw [hd] at h3
            rw [walk_parent h3 (walk_pos h5 h0)]
            exact h5
        · rw [← List.append_assoc, walk_append, h1]
          exact h3

/-- C53: the canonical path denotes the file that the path denotes. -/
theorem C53_same_file {es : List (List Nat × FTree)} {cwd : List FTree} {s : List Nat} {id : Nat} (h : opens (.dir es) cwd s = some id) :
    opens (.dir es) cwd (makeCanonical s) = some id := by
  obtain ⟨a, ds, l, rfl, hw, -⟩ := path_form s
  have hr : ∃ es', FTree.dir es = .dir es' := ⟨es, rfl⟩
  have hw' : WfDirs a (normal ds) l ∨ l = [] := by
    by_cases hl : l = []
    · exact .inr hl
    · refine .inl ⟨?_, hw.2.1, ?_⟩
      · intro d hd
        rcases List.mem_append.mp hd with hd | hd
        · rw [List.eq_of_mem_replicate hd]; decide
        · exact (segs_names hw.1 ⟨0, []⟩ (by simp) d hd).2.2.2
      · intro _ hh
        have : [] ∈ normal ds := List.mem_of_mem_head? hh
        rcases List.mem_append.mp this with hd | hd
        · have := List.eq_of_mem_replicate hd; revert this; decide
        · exact (segs_names hw.1 ⟨0, []⟩ (by simp) _ hd).1 rfl
  unfold opens at h ⊢
  rw [walk_pathText hw hr] at h
  cases hwk : walk (if a then [FTree.dir es] else cwd) (ds ++ [l]) with
  | none => rw [hwk] at h; cases h
  | some st =>
  rw [walk_append] at hwk
  obtain ⟨st1, h1, h2⟩ := Option.bind_eq_some_iff.mp hwk
  have hne : (if a then [FTree.dir es] else cwd) ≠ [] := by
    intro e
    rw [e] at h1
    cases ds with
    | nil =>
      simp only [walk, Option.some.injEq] at h1
      subst h1
      simp [walk] at h2
    | cons d ds => simp [walk] at h1
  rcases hw' with hw' | rfl
  · rw [canonical_text hw, walk_pathText hw' hr, walk_append]
    have := walk_fold hne ds ⟨0, []⟩ hw.1 (by simp) (by simp [walk]) h1
    rw [normal]
    simp only [this, Option.bind_some, h2]
    rw [walk_append, h1, Option.bind_some, h2] at h
    exact h
  · -- the last segment is not empty, since the path denotes a file
    exfalso
    match st1 with
    | [] => simp [walk] at h2
    | .file _ :: _ => simp [walk] at h2
    | .dir es1 :: up =>
      simp [walk] at h2
      subst h2
      rw [walk_append, h1] at h
      simp [walk] at h

/-! ### The path of an included file -/

theorem dropWhile_head {s : List Nat} (h : s.head? ≠ some 32) : s.dropWhile (· = 32) = s := by
  cases s with
  | nil => rfl
  | cons c s =>
    have : c ≠ 32 := fun e => h (by simp [e])
    exact List.dropWhile_cons_of_neg (by simpa using this)

theorem filepath_eq {s : List Nat} (h1 : s.head? ≠ some 32) (h2 : s.getLast? ≠ some 32) : filepath s = s := by
  unfold filepath
  split
  · rfl
  · rw [dropWhile_head h1, trimEnd, dropWhile_head, List.reverse_reverse]
    rwa [List.head?_reverse]

theorem parent_text {a ds l} (h : WfDirs a ds l) (h32 : (pathText a ds l).head? ≠ some 32) : parentPath (pathText a ds l) = pathText a ds [] := by
  have hl : ∀ x : List Nat, 47 ∉ x → ∀ y, (x ++ 47 :: y).dropWhile (· ≠ 47) = 47 :: y := by
    intro x hx y
    induction x with
    | nil => exact List.dropWhile_cons_of_neg (by simp)
    | cons c x ih =>
      have hc : c ≠ 47 := fun e => hx (by simp [e])
      rw [List.cons_append, List.dropWhile_cons_of_pos (by simpa using hc), ih fun e => hx (by simp [e])]
  have hl' : ∀ x : List Nat, 47 ∉ x → x.dropWhile (· ≠ 47) = [] := by
    intro x hx
    induction x with
    | nil => rfl
    | cons c x ih =>
      have hc : c ≠ 47 := fun e => hx (by simp [e])
      rw [List.dropWhile_cons_of_pos (by simpa using hc), ih fun e => hx (by simp [e])]
  have hrl : 47 ∉ l.reverse := by simpa using h.2.1
  have key : ((pathText a ds l).reverse.dropWhile (· ≠ 47)).reverse = pathText a ds [] := by
    rcases List.eq_nil_or_concat ds with rfl | ⟨ds', d, rfl⟩
    · cases a with
      | false =>
        simp only [pathText, Bool.false_eq_true, if_false, List.nil_append, List.flatMap_nil, List.append_nil]
        rw [hl' _ hrl]; rfl
      | true =>
        have := hl _ hrl []
        simp only [pathText, if_true, List.flatMap_nil, List.append_nil, List.reverse_append, List.reverse_cons, List.reverse_nil, List.nil_append]
        rw [this]; rfl
    · have e : (pathText a (ds' ++ [d]) l).reverse = l.reverse ++ 47 :: (pathText a ds' d).reverse := by simp [pathText]
      rw [List.concat_eq_append, e, hl _ hrl]
      simp [pathText]
  rw [parentPath, key]
  refine filepath_eq ?_ ?_
  · cases a with
    | true => simp [pathText]
    | false =>
      cases ds with
      | nil => simp [pathText]
      | cons d ds =>
        cases d with
        | nil => exact absurd rfl (h.2.2 rfl)
        | cons c d => simpa [pathText] using h32
  · rcases List.eq_nil_or_concat ds with rfl | ⟨ds', d, rfl⟩
    · cases a <;> simp [pathText]
    · simp [pathText]

/-- C53: the path computed for an included file denotes the file that the path written in the file `current` denotes, relative to the
directory of `current`.  Paths may not begin or end with blanks. -/
theorem C53_include_partial {es : List (List Nat × FTree)} {cwd dir : List FTree} {current s : List Nat} {id : Nat}
    (h32 : current.head? ≠ some 32 ∧ s.head? ≠ some 32 ∧ s.getLast? ≠ some 32)
    (hd : directory (.dir es) cwd current = some dir) (h : opens (.dir es) dir s = some id) :
    opens (.dir es) cwd (includePath current s) = some id := by
  have hr : ∃ es', FTree.dir es = .dir es' := ⟨es, rfl⟩
  simp only [includePath, filepath_eq h32.2.1 h32.2.2]
  by_cases ha : isAbsolute s = true
  · rw [if_pos ha]
    refine C53_same_file ?_
    have : s.head? = some 47 := by simpa [isAbsolute] using ha
    simp only [opens, origin, if_pos this] at h ⊢
    exact h
  · rw [if_neg ha]
    refine C53_same_file ?_
    obtain ⟨a, ds, l, rfl, hw, h47⟩ := path_form current
    rw [parent_text hw h32.1]
    obtain ⟨b, fs, m, rfl, hw', -⟩ := path_form s
    rw [pathText_absolute hw'] at ha
    cases b with
    | true => exact absurd rfl ha
    | false =>
    have e : pathText a ds [] ++ pathText false fs m = pathText a (ds ++ fs) m := by simp [pathText]
    have hw2 : WfDirs a (ds ++ fs) m := by
      refine ⟨?_, hw'.2.1, ?_⟩
      · intro d hd
        rcases List.mem_append.mp hd with hd | hd
        · exact hw.1 d hd
        · exact hw'.1 d hd
      · intro ha'
        cases ds with
        | nil => exact hw'.2.2 rfl
        | cons d ds => simpa using hw.2.2 ha'
    have hdir : walk (if a then [FTree.dir es] else cwd) ds = some dir := by
      unfold directory at hd
      cases a with
      | false =>
        have h1 : ¬ (pathText false ds l).head? = some 47 := fun e => absurd (h47.mpr e) (by simp)
        have h2 : split (pathText false ds l) = ds ++ [l] := by
          have : pathText false ds l = ds.flatMap (· ++ [47]) ++ l := by simp [pathText]
          rw [this, split_text hw.2.1 hw.1]
        rw [origin, if_neg h1, h2, List.dropLast_concat] at hd
        exact hd
      | true =>
        have h1 : (pathText true ds l).head? = some 47 := h47.mp rfl
        have h2 : split (pathText true ds l) = ([] :: ds) ++ [l] := by
          have : pathText true ds l = 47 :: (ds.flatMap (· ++ [47]) ++ l) := by simp [pathText]
          rw [this, split, if_pos rfl, split_text hw.2.1 hw.1]; rfl
        rw [origin, if_pos h1, h2, List.dropLast_concat, walk_dot _ ⟨es, [], rfl⟩] at hd
        exact hd
    rw [e, opens, walk_pathText hw2 hr, List.append_assoc, walk_append, hdir]
    rw [opens, walk_pathText hw' hr] at h
    exact h

/-- `/lib/a.eo`, `/lib/b.eo` and `/p/x.eo` -/
def exPathFs : FTree := .dir [(bytes "lib", .dir [(bytes "a.eo", .file 1), (bytes "b.eo", .file 2)]), (bytes "p", .dir [(bytes "x.eo", .file 3)])]

example : ∃ es up, exPathFs = .dir es ∧ opens exPathFs up (includePath (bytes "/p/x.eo") (bytes ".././lib//a.eo")) = some 1 ∧
    includePath (bytes "/p/x.eo") (bytes ".././lib//a.eo") = bytes "/lib/a.eo" := by
  refine ⟨_, [exPathFs], rfl, ?_, by decide +kernel⟩
  exact C53_include_partial (dir := [.dir [(bytes "x.eo", .file 3)], exPathFs]) (by decide) (by rfl) (by rfl)

/-- C53 fails for directories whose name begins with a blank: a file `z` included from ` d/y`, a path that arises from `./ d/y`, is searched in `d`. -/
theorem C53_blank_refuted :
    let fs : FTree := .dir [(bytes "d", .dir [(bytes "z", .file 1)]), (bytes " d", .dir [(bytes "y", .file 2), (bytes "z", .file 3)])]
    includePath [] (bytes "./ d/y") = bytes " d/y" ∧
    (directory fs [fs] (bytes " d/y")).bind (opens fs · (bytes "z")) = some 3 ∧
    opens fs [fs] (includePath (bytes " d/y") (bytes "z")) = some 1 := ⟨by decide +kernel, by rfl, by rfl⟩

/-! ### Different spellings -/

theorem foldl_respelled {ds es : List (List Nat)} (h : Respelled ds es) : ∀ st : Segments, ds.foldl Segments.add st = es.foldl Segments.add st := by
  induction h with
  | refl => intro st; rfl
  | symm _ ih => intro st; rw [ih]
  | trans _ _ ih1 ih2 => intro st; rw [ih1, ih2]
  | slash ds es => intro st; simp [Segments.add]
  | dot ds es => intro st; simp [Segments.add, bytes]
  | parent ds es x hx =>
    intro st
    simp only [List.foldl_append, List.foldl_cons, List.foldl_nil]
    congr 1
    generalize ds.foldl Segments.add st = st'
    have e1 : st'.add x = { st' with segs := st'.segs ++ [x] } := by simp [Segments.add, hx.1, hx.2.1, hx.2.2.1]
    have e2 : bytes ".." ≠ [] := by decide
    have e3 : bytes ".." ≠ bytes "." := by decide
    rw [e1]
    simp [Segments.add, e2, e3]

/-- C53: paths that differ only by additional slashes, `.` segments and names followed by `..`, before the last segment, have the same
canonical form. -/
theorem C53_spelling_partial {a : Bool} {ds es : List (List Nat)} {l : List Nat} (h : Respelled ds es)
    -- the segments contain no slashes, and the first slash of a relative path is not at its beginning
    (hd : ∀ d ∈ ds ++ es ++ [l], 47 ∉ d) (ha : a = false → ds.head? ≠ some [] ∧ es.head? ≠ some []) :
    makeCanonical (pathText a ds l) = makeCanonical (pathText a es l) := by
  have h1 : WfDirs a ds l := ⟨fun d h => hd d (by simp [h]), hd l (by simp), fun e => (ha e).1⟩
  have h2 : WfDirs a es l := ⟨fun d h => hd d (by simp [h]), hd l (by simp), fun e => (ha e).2⟩
  rw [canonical_text h1, canonical_text h2, normal, normal, foldl_respelled h]

example : makeCanonical (bytes "/p/./q/../x") = makeCanonical (bytes "/p/x") := by
  have h : Respelled [bytes "p", bytes ".", bytes "q", bytes ".."] [bytes "p"] :=
    .trans (.symm (.parent [bytes "p", bytes "."] [] (bytes "q") ⟨by decide, by decide, by decide, by decide⟩)) (.symm (.dot [bytes "p"] []))
  exact C53_spelling_partial (a := true) (l := bytes "x") h (by decide) (by simp)

/-- C53 fails for absolute paths that go above the root and for paths that end with `.`, `..` or a slash: the canonical forms of the following
pairs differ, although they denote the same file or directory. -/
theorem C53_spelling_refuted : makeCanonical (bytes "/../a") ≠ makeCanonical (bytes "/a") ∧ makeCanonical (bytes "a/.") ≠ makeCanonical (bytes "a") ∧
    makeCanonical (bytes "b/a/..") ≠ makeCanonical (bytes "b") ∧ makeCanonical (bytes "a/") ≠ makeCanonical (bytes "a") ∧
    ∀ es cwd, opens (.dir es) cwd (bytes "/../a") = opens (.dir es) cwd (bytes "/a") := by
  refine ⟨by decide +kernel, by decide +kernel, by decide +kernel, by decide +kernel, fun es cwd => ?_⟩
  simp [opens, origin, split, walk, bytes]

end Ethos.Props
