import Verif.Lemmas.Preserve
import Verif.Lemmas.Store
/-
Evaluation and typing depend only on what the environment says about the terms they meet.
-/
namespace Ethos.Props
open Ethos Kind Spec

/-- the attribute of a term and its argument; no entry is like an entry without attribute -/
def attrOf (env : Env) (t : Term) : Attr × Option Term :=
  match env.appInfo t with
  | some ai => if ai.attr = .NONE then (.NONE, none) else (ai.attr, ai.cons)
  | none => (.NONE, none)

/-- two environments that say the same about the terms with `P` -/
structure SameOn (env env' : Env) (P : Term → Prop) : Prop where
  symType : ∀ t, P t → env'.symType t = env.symType t
  symName : ∀ t, P t → env'.symName t = env.symName t
  attr : ∀ t, P t → attrOf env' t = attrOf env t
  litRule : env'.litRule = env.litRule
  rule : ∀ k t, env.litRule k = some t → P t
  made : ∀ t, P t → P (env.tmp t)
  hash : env'.hash = env.hash
  boundVar : env'.boundVar = env.boundVar
  tmp : env'.tmp = env.tmp
  self : env'.self = env.self
  listCons : env'.listCons = env.listCons
  listNil : env'.listNil = env.listNil
  listType : env'.listType = env.listType
  proofType : env'.proofType = env.proofType

/-- the entry points agree on terms with `P` -/
structure OpsAgree (P : Term → Prop) (o o' : Ops) : Prop where
  evaluate : ∀ t ctx, P t → CtxGood P ctx → o'.evaluate t ctx = o.evaluate t ctx
  evalOp : ∀ k args, (∀ a ∈ args, P a) → o'.evalOp k args = o.evalOp k args
  getType : ∀ t, P t → o'.getType t = o.getType t

theorem Out.bind_congr {α β : Type} {x y : Out α} {f g : α → Out β} (h : x = y) (hf : ∀ a, y = .ok a → f a = g a) : x.bind f = y.bind g := by
  subst h
  cases x with
  | ok a => exact hf a rfl
  | ub => rfl
  | fuel => rfl

theorem Out.map_congr {α β : Type} {x y : Out α} {f g : α → β} (h : x = y) (hf : ∀ a, y = .ok a → f a = g a) : x.map f = y.map g := by
  subst h
  cases x with
  | ok a => exact congrArg Out.ok (hf a rfl)
  | ub => rfl
  | fuel => rfl

variable {env env' : Env} {P : Term → Prop} {o o' : Ops}

/-! ### Types -/

theorem typesOf_agree : ∀ cs : List Term, (∀ c ∈ cs, o'.getType c = o.getType c) → typesOf o' cs = typesOf o cs
  | [], _ => rfl
  | c :: cs, h => by
    simp only [typesOf]
    refine Out.bind_congr (h c (by simp)) fun t _ => ?_
    cases t with
    | none => rfl
    | some t =>
      dsimp only
      rw [typesOf_agree cs fun d hd => h d (by simp [hd])]

theorem appPairs_agree (G : Good env P) (ha : OpsAgree P o o') : ∀ hs cs : List Term, (∀ c ∈ hs, P c) → (∀ c ∈ cs, P c) → appPairs o' hs cs = appPairs o hs cs
  | h :: hs, c :: cs, hh, hc => by
    have ih := appPairs_agree G ha hs cs (fun d hd => hh d (by simp [hd])) (fun d hd => hc d (by simp [hd]))
    simp only [appPairs, ih]
    split
    · rename_i hk
      refine Out.bind_congr rfl fun q hq => ?_
      rw [ha.getType c (hc c (by simp)), ha.getType q (G.children (by rw [hk]; simp) (hh h (by simp)) q (argO_good_ok hq))]
    · rw [ha.getType c (hc c (by simp))]
  | [], cs, _, _ => by simp [appPairs]
  | h :: hs, [], _, _ => by simp [appPairs]

theorem typeApp_agree (G : Good env P) (ho : OpsGood P o) (ha : OpsAgree P o o') {cs : List Term} (hc : ∀ c ∈ cs, P c) : typeApp o' cs = typeApp o cs := by
  simp only [typeApp]
  refine Out.bind_congr rfl fun hd h1 => ?_
  have hhd := hc _ (argO_good_ok h1)
  refine Out.bind_congr (ha.getType _ hhd) fun ht h2 => ?_
  cases ht with
  | none => rfl
  | some hdType =>
    dsimp only
    have hht := ho.getType _ _ hhd h2
    split
    · rfl
    · rename_i hk
      have hkp : hdType.kind ≠ PROOF := by
        intro hp; rw [hp] at hk; simp at hk
      split
      · rfl
      · have hds : ∀ c ∈ hdType.children.dropLast, P c := fun c hc => G.children hkp hht c (List.dropLast_subset _ hc)
        have hts : ∀ c ∈ cs.tail, P c := fun c h => hc c (List.mem_of_mem_tail h)
        refine Out.bind_congr (appPairs_agree G ha _ _ hds hts) fun q h4 => ?_
        have hq := appPairs_good G ho _ _ _ hds hts h4
        split
        · rfl
        · rfl
        · rename_i ctx hm
          have hctx := matchLoop_good G _ _ _ _ _ _ hq .nil hm
          split
          · split
            · rfl
            · rename_i ret hret
              rw [ha.evaluate _ _ (G.children hkp hht _ (List.mem_of_getLast? hret)) hctx]
          · rfl

theorem litType_agree (G : Good env P) (hE : SameOn env env' P) (ha : OpsAgree P o o') {k : Kind} {self : Option Term} (hs : ∀ s, self = some s → P s) :
    litType env' o' k self = litType env o k self := by
  have hr : P ((env.litRule k).getD tAny) := by
    cases hl : env.litRule k with
    | none => exact G.any
    | some t => exact hE.rule _ _ hl
  simp only [litType, hE.litRule, hE.self]
  split
  · rfl
  · rw [ha.evaluate _ _ hr (CtxGood.nil.cons ?_)]
    cases self with
    | none => exact G.any
    | some s => exact hs s rfl

theorem litOpType_agree (G : Good env P) (hE : SameOn env env' P) (ha : OpsAgree P o o') {k : Kind} {cs ts : List Term} :
    litOpType env' o' k cs ts = litOpType env o k cs ts := by
  have h := fun k => litType_agree (k := k) (self := none) G hE ha (by simp)
  unfold litOpType
  simp only [h, hE.listType]

theorem typeInternal_agree (G : Good env P) (hE : SameOn env env' P) (ho : OpsGood P o) (ha : OpsAgree P o o')
    (hch : ∀ t, P t → ∀ c ∈ t.children, P c) {e : Term} {ts : List Term} (he : P e) : typeInternal env' o' e ts = typeInternal env o e ts := by
  have h1 := typeApp_agree G ho ha (hch e he)
  have h2 := litType_agree (k := e.kind) (self := some e) G hE ha (by simpa using he)
  have h3 := fun k => litOpType_agree (k := k) (cs := e.children) (ts := ts) G hE ha
  have h4 : ((argO e.children 0).bind fun vars => (typesOf o' vars.children).bind fun ts' =>
      match ts' with
      | none => .ub
      | some ts' => (argO ts 1).map fun ret => some (mkFunctionType ts' ret)) = ((argO e.children 0).bind fun vars => (typesOf o vars.children).bind fun ts' =>
      match ts' with
      | none => .ub
      | some ts' => (argO ts 1).map fun ret => some (mkFunctionType ts' ret)) :=
    Out.bind_congr rfl fun v hv => by
      rw [typesOf_agree (o := o) (o' := o') v.children fun c hc => ha.getType c (hch v (hch e he v (argO_good_ok hv)) c hc)]
  unfold typeInternal
  simp only [h1, h2, h3, hE.proofType]
  split <;> first
    | rfl
    | exact h4

theorem typeStep_agree (G : Good env P) (hE : SameOn env env' P) (ho : OpsGood P o) (ha : OpsAgree P o o')
    (hch : ∀ t, P t → ∀ c ∈ t.children, P c) {e : Term} (he : P e) : typeStep env' o' e = typeStep env o e := by
  unfold typeStep
  split
  · rw [hE.symType _ he]
  · refine Out.bind_congr (typesOf_agree e.children fun c hc => ha.getType c (hch e he c hc)) fun cts _ => ?_
    cases cts with
    | none => rfl
    | some ts => dsimp only; rw [typeInternal_agree G hE ho ha hch he]

/-! ### Operators -/

theorem consTerm_agree (G : Good env P) (ho : OpsGood P o) (ha : OpsAgree P o o') {ai : AppInfo} {cs : List Term} (hac : ∀ c, ai.cons = some c → P c)
    (hc : ∀ c ∈ cs, P c) : consTerm o' ai cs = consTerm o ai cs := by
  unfold consTerm
  split
  · rfl
  · rename_i ct hct
    split
    · rfl
    · rename_i hk
      have hk : ct.kind = PARAMETERIZED := Decidable.of_not_not hk
      split
      · rfl
      · rfl
      · rename_i hd c1 r
        split
        · rfl
        · have h1 := hc hd (by simp)
          have h2 := hc c1 (by simp)
          refine Out.bind_congr (ha.getType _ h1) fun t0 _ => ?_
          cases t0 with
          | none => rfl
          | some t0 =>
            refine Out.bind_congr (ha.getType _ h2) fun t1 _ => ?_
            cases t1 with
            | none => rfl
            | some t1 =>
              have h12 : ∀ c ∈ [hd, c1], P c := by simp [h1, h2]
              refine Out.bind_congr (typeApp_agree G ho ha h12) fun q hq => ?_
              have hctx := (typeApp_good G ho h12 hq).2
              split
              · rename_i ps body rest hcc
                rw [ha.evaluate _ _ (G.children (by rw [hk]; simp) (hac ct hct) body (by rw [hcc]; simp)) hctx]
              · rfl

theorem consTerm_ext {ai ai' : AppInfo} (h1 : ai'.attr = ai.attr) (h2 : ai'.cons = ai.cons) (cs : List Term) : consTerm o ai' cs = consTerm o ai cs := by
  unfold consTerm; rw [h1, h2]

/-- entries that agree: both without attribute, or with the same -/
theorem attr_cases {t : Term} (h : attrOf env' t = attrOf env t) :
    ((∀ ai, env.appInfo t = some ai → ai.attr = .NONE) ∧ (∀ ai, env'.appInfo t = some ai → ai.attr = .NONE)) ∨
    ∃ ai ai', env.appInfo t = some ai ∧ env'.appInfo t = some ai' ∧ ai'.attr = ai.attr ∧ ai'.cons = ai.cons := by
  unfold attrOf at h
  cases h1 : env.appInfo t with
  | none =>
    rw [h1] at h
    cases h2 : env'.appInfo t with
    | none => exact .inl ⟨by simp, by simp⟩
    | some ai' =>
      rw [h2] at h
      refine .inl ⟨by simp, ?_⟩
      intro ai hai
      cases hai
      by_cases ha : ai'.attr = .NONE
      · exact ha
      · simp only [if_neg ha] at h
        exact absurd (Prod.ext_iff.1 h).1 ha
  | some ai =>
    rw [h1] at h
    cases h2 : env'.appInfo t with
    | none =>
      rw [h2] at h
      refine .inl ⟨?_, by simp⟩
      intro ai1 hai
      cases hai
      by_cases ha : ai.attr = .NONE
      · exact ha
      · simp only [if_neg ha] at h
        exact absurd (Prod.ext_iff.1 h).1.symm ha
    | some ai' =>
      rw [h2] at h
      by_cases ha : ai.attr = .NONE
      · by_cases ha' : ai'.attr = .NONE
        · exact .inl ⟨by simpa using ha, by simpa using ha'⟩
        · simp only [if_neg ha', if_pos ha] at h
          exact absurd (Prod.ext_iff.1 h).1 ha'
      · by_cases ha' : ai'.attr = .NONE
        · simp only [if_neg ha, if_pos ha'] at h
          exact absurd (Prod.ext_iff.1 h).1.symm ha
        · simp only [if_neg ha, if_neg ha', Prod.mk.injEq] at h
          exact .inr ⟨ai, ai', rfl, rfl, h.1, h.2⟩

theorem program_agree {t : Term} (h : attrOf env' t = attrOf env t) : env'.program t = env.program t := by
  unfold Env.program
  rcases attr_cases h with ⟨h1, h2⟩ | ⟨ai, ai', h1, h2, h3, h4⟩
  · cases e1 : env.appInfo t with
    | none =>
      cases e2 : env'.appInfo t with
      | none => rfl
      | some a => dsimp only; rw [h2 a e2]; rfl
    | some a1 =>
      cases e2 : env'.appInfo t with
      | none => dsimp only; rw [h1 a1 e1]; rfl
      | some a => dsimp only; rw [h2 a e2, h1 a1 e1]; rfl
  · rw [h1, h2]; dsimp only; rw [h3, h4]

theorem evalProgram_agree (hE : SameOn env env' P) {cs : List Term} (hc : ∀ c ∈ cs, P c) : evalProgram env' cs = evalProgram env cs := by
  unfold evalProgram
  split
  · rfl
  · split
    · rfl
    · split
      · rfl
      · rw [program_agree (hE.attr _ (hc _ (by simp)))]

theorem evalList_agree (G : Good env P) (hE : SameOn env env' P) (ho : OpsGood P o) (ha : OpsAgree P o o') {k : Kind} {args : List Term} (hc : ∀ c ∈ args, P c) :
    evalList env' o' k args = evalList env o k args := by
  simp only [evalList]
  refine Out.bind_congr rfl fun a0 h0 => ?_
  refine Out.bind_congr rfl fun op hop => ?_
  have hP0 := hc _ (argO_good_ok h0)
  have hPop : P op := by
    split at hop
    · rename_i hk; exact G.children (by rw [hk]; simp) hP0 _ (argO_good_ok hop)
    · cases hop; exact hP0
  rcases attr_cases (hE.attr op hPop) with ⟨h1, h2⟩ | ⟨ai, ai', h1, h2, h3, h4⟩
  · have hN : (!isListNilAttr Attr.NONE) = true := rfl
    cases e1 : env.appInfo op with
    | none =>
      cases e2 : env'.appInfo op with
      | none => rfl
      | some a => dsimp only; rw [h2 a e2, if_pos hN]
    | some a1 =>
      cases e2 : env'.appInfo op with
      | none => dsimp only; rw [h1 a1 e1, if_pos hN]
      | some a => dsimp only; rw [h2 a e2, h1 a1 e1, if_pos hN, if_pos hN]
  · rw [h1, h2]
    dsimp only
    rw [h3]
    split
    · rfl
    · have hac : ∀ c, ai.cons = some c → P c := fun c hc => G.cons _ _ _ hPop h1 hc
      split
      · refine Out.bind_congr rfl fun ty hty => ?_
        rw [consTerm_ext h3 h4, hE.tmp, consTerm_agree G ho ha hac (by
          intro c hcc
          simp at hcc
          rcases hcc with rfl | rfl
          · exact hP0
          · exact hE.made _ (hc _ (argO_good_ok hty)))]
      · split
        · rfl
        · rename_i a1 h5
          rw [consTerm_ext h3 h4, consTerm_agree G ho ha hac (by
            intro c hcc
            simp at hcc
            rcases hcc with rfl | rfl
            · exact hP0
            · exact hc _ (List.mem_of_getElem? h5))]

theorem evalValues_agree (G : Good env P) (hE : SameOn env env' P) (ho : OpsGood P o) (ha : OpsAgree P o o') {k : Kind} {args : List Term} (hc : ∀ c ∈ args, P c) :
    evalValues env' o' k args = evalValues env o k args := by
  unfold evalValues
  rw [evalList_agree G hE ho ha hc]

theorem dtSelectors_agree (G : Good env P) (hE : SameOn env env' P) {a : Term} (hP : P a) : dtSelectors env' a = dtSelectors env a := by
  simp only [dtSelectors]
  refine Out.bind_congr rfl fun s hs => ?_
  have hPs : P s := by
    split at hs
    · rename_i hk; exact G.children (by rw [hk]; simp) hP _ (argO_good_ok hs)
    · cases hs; exact hP
  rcases attr_cases (hE.attr s hPs) with ⟨h1, h2⟩ | ⟨ai, ai', h1, h2, h3, h4⟩
  · cases e1 : env.appInfo s with
    | none =>
      cases e2 : env'.appInfo s with
      | none => rfl
      | some a => dsimp only; rw [h2 a e2]; simp
    | some a1 =>
      cases e2 : env'.appInfo s with
      | none => dsimp only; rw [h1 a1 e1]; simp
      | some a => dsimp only; rw [h2 a e2, h1 a1 e1]; simp
  · rw [h1, h2]; dsimp only; rw [h3, h4]

theorem dtConstructors_agree (G : Good env P) (hE : SameOn env env' P) (ha : OpsAgree P o o') {a : Term} (hP : P a) :
    dtConstructors env' o' a = dtConstructors env o a := by
  simp only [dtConstructors]
  rw [ha.getType a hP]
  refine Out.bind_congr rfl fun isP _ => ?_
  have hs : P (if isP = true then stripApply a else a) := by
    split
    · exact stripApply_good G _ hP
    · exact hP
  generalize hsg : (if isP = true then stripApply a else a) = s at hs
  have amb : ∀ c, P c → (match env'.appInfo c with
      | some ci => if ci.attr = Attr.AMB_DATATYPE_CONSTRUCTOR then Term.node APPLY_OPAQUE [c, a] else c
      | none => c) = (match env.appInfo c with
      | some ci => if ci.attr = Attr.AMB_DATATYPE_CONSTRUCTOR then .node APPLY_OPAQUE [c, a] else c
      | none => c) := by
    intro c hc
    rcases attr_cases (hE.attr c hc) with ⟨h1, h2⟩ | ⟨ai, ai', h1, h2, h3, h4⟩
    · cases e1 : env.appInfo c with
      | none =>
        cases e2 : env'.appInfo c with
        | none => rfl
        | some a => dsimp only; rw [h2 a e2]; simp
      | some a1 =>
        cases e2 : env'.appInfo c with
        | none => dsimp only; rw [h1 a1 e1]; simp
        | some a => dsimp only; rw [h2 a e2, h1 a1 e1]
    · rw [h1, h2]; dsimp only; rw [h3]
  rcases attr_cases (hE.attr s hs) with ⟨h1, h2⟩ | ⟨ai, ai', h1, h2, h3, h4⟩
  · cases e1 : env.appInfo s with
    | none =>
      cases e2 : env'.appInfo s with
      | none => rfl
      | some a => dsimp only; rw [h2 a e2]; simp
    | some a1 =>
      cases e2 : env'.appInfo s with
      | none => dsimp only; rw [h1 a1 e1]; simp
      | some a => dsimp only; rw [h2 a e2, h1 a1 e1]; simp
  · rw [h1, h2]; dsimp only; rw [h3, h4]
    split
    · split
      · split
        · rfl
        · rename_i l hl
          have hlP := G.cons _ _ _ hs h1 hl
          have := (naryLoop_good G env.listCons false _ hlP).1
          simp only [mkListTerm, hE.listCons, hE.listNil]
          congr 3
          exact List.map_congr_left fun c hc => amb c (this c hc)
      · rfl
    · rfl

theorem evalGround_agree (G : Good env P) (hE : SameOn env env' P) (ho : OpsGood P o) (ha : OpsAgree P o o') {k : Kind} {args : List Term} (hc : ∀ c ∈ args, P c) :
    evalGround env' o' k args = evalGround env o k args := by
  have hv := fun k => evalValues_agree (k := k) G hE ho ha hc
  unfold evalGround
  simp only [hv, hE.hash, hE.boundVar]
  split <;> try rfl
  · refine Out.bind_congr rfl fun a h1 => ?_
    rw [ha.getType a (hc _ (argO_good_ok h1))]
  · refine Out.bind_congr rfl fun a h1 => ?_
    rw [hE.symName a (hc _ (argO_good_ok h1))]
  · refine Out.bind_congr rfl fun a h1 => ?_
    split
    · refine Out.bind_congr rfl fun ty h2 => ?_
      rw [ha.getType ty (hc _ (argO_good_ok h2))]
    · rfl
  · exact Out.bind_congr rfl fun a h1 => dtSelectors_agree G hE (hc _ (argO_good_ok h1))
  · exact Out.bind_congr rfl fun a h1 => dtConstructors_agree G hE ha (hc _ (argO_good_ok h1))

theorem opStep_agree (G : Good env P) (hE : SameOn env env' P) (ho : OpsGood P o) (ha : OpsAgree P o o') {k : Kind} {args : List Term} (hc : ∀ c ∈ args, P c) :
    opStep env' o' k args = opStep env o k args := by
  have hv := fun k => evalGround_agree (k := k) G hE ho ha hc
  unfold opStep
  simp only [hv]

/-! ### The machine -/

structure FrameGood (P : Term → Prop) (f : Frame) : Prop where
  ctx : CtxGood P f.ctx
  vals : ∀ c v, f.visited.lookup c = some (some v) → P v ∧ (c.kind = TUPLE → v.kind = TUPLE)
  visit : ∀ c ∈ f.visit, P c

structure MachGood (P : Term → Prop) (m : Mach) : Prop where
  frames : ∀ f ∈ m.stack, FrameGood P f
  below : ∀ f ∈ m.stack.tail, ∀ c r, f.visit = c :: r → c.kind ≠ TUPLE
  trie : ∀ k v, m.trie.lookup k = some (some v) → P v

theorem FrameGood.set {f : Frame} (hf : FrameGood P f) {cur v : Term} {rest : List Term} (hr : ∀ c ∈ rest, P c) (hv : P v) (hk : cur.kind = TUPLE → v.kind = TUPLE) :
    FrameGood P (f.set cur rest v) := by
  refine ⟨hf.ctx, ?_, hr⟩
  intro c w h
  simp only [Frame.set, List.lookup] at h
  split at h
  · rename_i he
    cases h
    have : c = cur := by simpa using he
    subst this
    exact ⟨hv, hk⟩
  · exact hf.vals c w h

theorem allSome_good {f : Frame} (hf : FrameGood P f) : ∀ {l cs : List Term}, allSome (l.map fun c => (f.visited.lookup c).join) = some cs →
    (∀ c ∈ cs, P c) ∧ ∀ x, l.head? = some x → x.kind = TUPLE → ∀ y, cs.head? = some y → y.kind = TUPLE
  | [], cs, h => by
    simp only [List.map_nil, allSome, Option.some.injEq] at h
    subst h
    exact ⟨by simp, by simp⟩
  | c :: l, cs, h => by
    simp only [List.map_cons] at h
    cases hc : f.visited.lookup c with
    | none => rw [hc] at h; simp [allSome] at h
    | some x =>
      cases x with
      | none => rw [hc] at h; simp [allSome] at h
      | some v =>
        rw [hc] at h
        simp only [Option.join_some, allSome, Option.map_eq_some_iff] at h
        obtain ⟨r, hr, rfl⟩ := h
        have hv := hf.vals c v hc
        have ih := (allSome_good hf hr).1
        refine ⟨?_, ?_⟩
        · intro d hd
          rcases List.mem_cons.1 hd with rfl | hd
          · exact hv.1
          · exact ih d hd
        · intro x hx hk y hy
          cases hx; cases hy
          exact hv.2 hk

theorem rebuild_good (G : Good env P) (hpr : ∀ cs, P (.node PROOF cs) ↔ ∀ c ∈ cs, P c) {cur : Term} {cs : List Term} (hcur : P cur) (hcs : ∀ c ∈ cs, P c)
    (hl : cs.length = cur.children.length)
    (hh : ∀ x, cur.children.head? = some x → x.kind = TUPLE → ∀ y, cs.head? = some y → y.kind = TUPLE) : P (rebuild cur cs) ∧ (rebuild cur cs).kind = cur.kind := by
  unfold rebuild
  split
  · exact ⟨hcur, rfl⟩
  · rename_i hne
    refine ⟨?_, rfl⟩
    cases cur with
    | sym k i => cases cs with
      | nil => exact absurd rfl hne
      | cons c cs => simp [Term.children] at hl
    | lit l => cases cs with
      | nil => exact absurd rfl hne
      | cons c cs => simp [Term.children] at hl
    | node k ds =>
      show P (.node k cs)
      by_cases hp : k = PROOF
      · subst hp; exact (hpr cs).2 hcs
      · by_cases hlam : k = LAMBDA
        · subst hlam
          refine (G.lambda cs).2 ⟨hcs, ?_⟩
          intro vs hvs
          have := ((G.lambda ds).1 hcur).2
          cases ds with
          | nil => cases cs with
            | nil => cases hvs
            | cons c cs => simp [Term.children] at hl
          | cons d ds => exact hh d rfl (this d rfl) vs hvs
        · exact (G.node k cs ⟨hp, hlam, G.leaf _ _ hcur⟩).2 hcs

theorem allSome_length : ∀ {l : List (Option Term)} {cs : List Term}, allSome l = some cs → cs.length = l.length
  | [], cs, h => by simp only [allSome, Option.some.injEq] at h; subst h; rfl
  | none :: l, cs, h => by simp [allSome] at h
  | some t :: l, cs, h => by
    simp only [allSome, Option.map_eq_some_iff] at h
    obtain ⟨r, hr, rfl⟩ := h
    simp [allSome_length hr]

/-- the next state is good -/
def NextGood (P : Term → Prop) (s : Step) : Prop := ∀ m, s = .next m → MachGood P m

section
variable {f : Frame} {fs : List Frame} {tr : List (List Term × Option Term)} {cur : Term} {rest : List Term}
  (hf : FrameGood P f) (hfs : ∀ g ∈ fs, FrameGood P g) (hb : ∀ g ∈ fs, ∀ c r, g.visit = c :: r → c.kind ≠ TUPLE)
  (htr : ∀ k v, tr.lookup k = some (some v) → P v) (hcur : P cur) (hrest : ∀ c ∈ rest, P c)

theorem mach_of {f' : Frame} {tr' : List (List Term × Option Term)} (hf : FrameGood P f') (hfs : ∀ g ∈ fs, FrameGood P g) (hb : ∀ g ∈ fs, ∀ c r, g.visit = c :: r → c.kind ≠ TUPLE)
    (htr : ∀ k v, tr'.lookup k = some (some v) → P v) : MachGood P ⟨f' :: fs, tr'⟩ :=
  ⟨fun g hg => by rcases List.mem_cons.1 hg with rfl | hg; exact hf; exact hfs g hg, hb, htr⟩

include hf hfs hb hcur hrest in
theorem finish_good (G : Good env P) (hpr : ∀ cs, P (.node PROOF cs) ↔ ∀ c ∈ cs, P c) (htr : ∀ k v, tr.lookup k = some (some v) → P v) {r : Option Term}
    (hr : ∀ v, r = some v → P v ∧ cur.kind ≠ TUPLE) : NextGood P (finish f fs tr cur rest (cur.children.map fun c => (f.visited.lookup c).join) r) := by
  intro m hm
  unfold finish at hm
  split at hm
  · rename_i v
    cases hm
    exact mach_of (hf.set hrest (hr v rfl).1 fun h => absurd h (hr v rfl).2) hfs hb htr
  · split at hm
    · rename_i cs hcs
      cases hm
      have h1 := allSome_good hf hcs
      have h2 := rebuild_good G hpr hcur h1.1 (by rw [allSome_length hcs, List.length_map]) h1.2
      exact mach_of (hf.set hrest h2.1 fun h => h2.2.trans h) hfs hb htr
    · cases hm

variable {O O' : Kind → List Term → Out (Option Term)} {Q Q' : List Term → Out (Option (Term × Ctx))}

theorem lookup_cons_good (htr : ∀ k v, tr.lookup k = some (some v) → P v) {k0 : List Term} {v0 : Option Term} (h : ∀ v, v0 = some v → P v) :
    ∀ k v, ((k0, v0) :: tr).lookup k = some (some v) → P v := by
  intro k v hk
  simp only [List.lookup] at hk
  split at hk
  · cases hk; exact h v rfl
  · exact htr k v hk

include hf hfs hb htr hcur hrest in
theorem stepProg_agree (G : Good env P) (hpr : ∀ cs, P (.node PROOF cs) ↔ ∀ c ∈ cs, P c)
    (hQ : ∀ cs, (∀ c ∈ cs, P c) → Q' cs = Q cs) (hQP : ∀ cs body ctx, (∀ c ∈ cs, P c) → Q cs = .ok (some (body, ctx)) → P body ∧ CtxGood P ctx)
    (hvis : f.visit = cur :: rest) (hk : cur.kind ≠ TUPLE) :
    stepProg Q' f fs tr cur rest (cur.children.map fun c => (f.visited.lookup c).join) = stepProg Q f fs tr cur rest (cur.children.map fun c => (f.visited.lookup c).join) ∧
    NextGood P (stepProg Q f fs tr cur rest (cur.children.map fun c => (f.visited.lookup c).join)) := by
  unfold stepProg
  split
  · exact ⟨rfl, by intro m hm; cases hm⟩
  · rename_i cs hcs
    have h1 := (allSome_good hf hcs).1
    split
    · rename_i r hr
      exact ⟨rfl, finish_good hf hfs hb hcur hrest G hpr htr fun v hv => ⟨htr cs v (by rw [hr, hv]), hk⟩⟩
    · rw [hQ cs h1]
      refine ⟨rfl, ?_⟩
      split
      · exact finish_good hf hfs hb hcur hrest G hpr (lookup_cons_good htr (by simp)) (by simp)
      · rename_i body nctx hq
        have h2 := hQP cs body nctx h1 hq
        split
        · exact finish_good hf hfs hb hcur hrest G hpr (lookup_cons_good htr (by simpa using h2.1)) (by rintro v ⟨⟩; exact ⟨h2.1, hk⟩)
        · intro m hm
          cases hm
          refine ⟨?_, ?_, htr⟩
          · intro g hg
            rcases List.mem_cons.1 hg with rfl | hg
            · exact ⟨h2.2, by simp, by simpa using h2.1⟩
            · rcases List.mem_cons.1 hg with rfl | hg
              · exact hf
              · exact hfs g hg
          · intro g hg c r hv
            rcases List.mem_cons.1 hg with rfl | hg
            · rw [hvis] at hv; cases hv; exact hk
            · exact hb g hg c r hv
      · intro m hm; cases hm
      · intro m hm; cases hm

include hf hfs hb htr hcur hrest in
theorem stepSecond_agree (G : Good env P) (hpr : ∀ cs, P (.node PROOF cs) ↔ ∀ c ∈ cs, P c) (hch : ∀ t, P t → ∀ c ∈ t.children, P c)
    (hO : ∀ k cs, (∀ c ∈ cs, P c) → O' k cs = O k cs) (hOP : ∀ k cs v, (∀ c ∈ cs, P c) → O k cs = .ok (some v) → P v)
    (hQ : ∀ cs, (∀ c ∈ cs, P c) → Q' cs = Q cs) (hQP : ∀ cs body ctx, (∀ c ∈ cs, P c) → Q cs = .ok (some (body, ctx)) → P body ∧ CtxGood P ctx)
    (hvis : f.visit = cur :: rest) :
    stepSecond O' Q' f fs tr cur rest = stepSecond O Q f fs tr cur rest ∧ NextGood P (stepSecond O Q f fs tr cur rest) := by
  have fin := fun r hr => finish_good (r := r) hf hfs hb hcur hrest G hpr htr hr
  have fin0 := fin none (by simp)
  have nx : ∀ vs : List Term, (∀ c ∈ vs, P c) → NextGood P (.next ⟨{ f with visit := vs ++ cur :: rest } :: fs, tr⟩) := by
    intro vs h m hm
    cases hm
    refine mach_of ⟨hf.ctx, hf.vals, ?_⟩ hfs hb htr
    intro c hc
    simp only [List.mem_append, List.mem_cons] at hc
    rcases hc with hc | rfl | hc
    · exact h c hc
    · exact hcur
    · exact hrest c hc
  simp only [stepSecond]
  split
  · rename_i hk
    have hkt : cur.kind ≠ TUPLE := by rcases hk with hk | hk <;> rw [hk] <;> simp
    split
    · split
      · exact stepProg_agree hf hfs hb htr hcur hrest G hpr hQ hQP hvis hkt
      · exact ⟨rfl, fin0⟩
    · exact ⟨rfl, by intro m hm; cases hm⟩
  · split
    · rename_i hk
      have hkt : cur.kind ≠ TUPLE := by rw [hk]; simp
      refine ⟨rfl, ?_⟩
      split
      · rename_i t0 t1 t2 c a b hcc hcch
        have p1 : P t1 := hch cur hcur t1 (by rw [hcc]; simp)
        have p2 : P t2 := hch cur hcur t2 (by rw [hcc]; simp)
        split
        · rename_i v
          split
          · exact nx [if v then t1 else t2] (by cases v <;> simp [p1, p2])
          · rename_i e he
            refine fin (some e) ?_
            rintro w ⟨⟩
            refine ⟨?_, hkt⟩
            rw [hcc] at hcch
            simp only [List.map_cons, List.cons.injEq] at hcch
            cases v with
            | true =>
              simp only [if_true] at he
              have := hcch.2.1
              rw [he] at this
              exact (hf.vals t1 _ (Option.join_eq_some_iff.1 this)).1
            | false =>
              simp only [Bool.false_eq_true, if_false] at he
              have := hcch.2.2.1
              rw [he] at this
              exact (hf.vals t2 _ (Option.join_eq_some_iff.1 this)).1
        · split
          · have := nx ((if b.isNone then [t2] else []) ++ (if a.isNone then [t1] else [])) (by
              intro c hc
              simp only [List.mem_append] at hc
              rcases hc with hc | hc
              · split at hc
                · simp at hc; rw [hc]; exact p2
                · simp at hc
              · split at hc
                · simp at hc; rw [hc]; exact p1
                · simp at hc)
            simpa only [List.append_assoc] using this
          · exact fin0
      · intro m hm; cases hm
    · split
      · rename_i hlo
        have hkt : cur.kind ≠ TUPLE := by intro h; rw [h] at hlo; simp [isLiteralOp] at hlo
        split
        · exact ⟨rfl, by intro m hm; cases hm⟩
        · rename_i cs hcs
          have h1 := (allSome_good hf hcs).1
          rw [hO _ cs h1]
          refine ⟨rfl, ?_⟩
          split
          · rename_i r hr
            exact fin r fun v hv => ⟨hOP _ cs v h1 (by rw [hr, hv]), hkt⟩
          · intro m hm; cases hm
          · intro m hm; cases hm
      · exact ⟨rfl, fin0⟩

include hf hfs hb htr hcur hrest in
theorem stepCur_agree (G : Good env P) (hpr : ∀ cs, P (.node PROOF cs) ↔ ∀ c ∈ cs, P c) (hch : ∀ t, P t → ∀ c ∈ t.children, P c)
    (hO : ∀ k cs, (∀ c ∈ cs, P c) → O' k cs = O k cs) (hOP : ∀ k cs v, (∀ c ∈ cs, P c) → O k cs = .ok (some v) → P v)
    (hQ : ∀ cs, (∀ c ∈ cs, P c) → Q' cs = Q cs) (hQP : ∀ cs body ctx, (∀ c ∈ cs, P c) → Q cs = .ok (some (body, ctx)) → P body ∧ CtxGood P ctx)
    (hvis : f.visit = cur :: rest) :
    stepCur O' Q' f fs tr cur rest = stepCur O Q f fs tr cur rest ∧ NextGood P (stepCur O Q f fs tr cur rest) := by
  have st : ∀ v, P v → (cur.kind = TUPLE → v.kind = TUPLE) → NextGood P (.next ⟨f.set cur rest v :: fs, tr⟩) := by
    intro v hv hk m hm
    cases hm
    exact mach_of (hf.set hrest hv hk) hfs hb htr
  have nx : ∀ vs : List Term, (∀ c ∈ vs, P c) → NextGood P (.next ⟨{ f with visited := (cur, none) :: f.visited, visit := vs ++ cur :: rest } :: fs, tr⟩) := by
    intro vs h m hm
    cases hm
    refine mach_of ⟨hf.ctx, ?_, ?_⟩ hfs hb htr
    · intro c v hv
      simp only [List.lookup] at hv
      split at hv
      · cases hv
      · exact hf.vals c v hv
    · intro c hc
      simp only [List.mem_append, List.mem_cons] at hc
      rcases hc with hc | rfl | hc
      · exact h c hc
      · exact hcur
      · exact hrest c hc
  unfold stepCur
  split
  · exact ⟨rfl, st cur hcur id⟩
  · split
    · rename_i hk
      refine ⟨rfl, ?_⟩
      split
      · rename_i v hv
        exact st v (hf.ctx cur v hv) (fun h => by rw [hk.1] at h; cases h)
      · exact st cur hcur id
    · split
      · refine ⟨rfl, ?_⟩
        split
        · split
          · rename_i c _ _ hcc
            exact nx [c] (by simpa using hch cur hcur c (by rw [hcc]; simp))
          · exact st cur hcur id
        · exact nx cur.children.reverse fun c hc => hch cur hcur c (List.mem_reverse.1 hc)
      · refine ⟨rfl, ?_⟩
        intro m hm
        cases hm
        exact mach_of ⟨hf.ctx, hf.vals, hrest⟩ hfs hb htr
      · exact stepSecond_agree hf hfs hb htr hcur hrest G hpr hch hO hOP hQ hQP hvis

theorem stepMach_agree (G : Good env P) (hpr : ∀ cs, P (.node PROOF cs) ↔ ∀ c ∈ cs, P c) (hch : ∀ t, P t → ∀ c ∈ t.children, P c)
    (hO : ∀ k cs, (∀ c ∈ cs, P c) → O' k cs = O k cs) (hOP : ∀ k cs v, (∀ c ∈ cs, P c) → O k cs = .ok (some v) → P v)
    (hQ : ∀ cs, (∀ c ∈ cs, P c) → Q' cs = Q cs) (hQP : ∀ cs body ctx, (∀ c ∈ cs, P c) → Q cs = .ok (some (body, ctx)) → P body ∧ CtxGood P ctx)
    {m : Mach} (hm : MachGood P m) :
    stepMach O' Q' m = stepMach O Q m ∧ NextGood P (stepMach O Q m) := by
  obtain ⟨stack, tr⟩ := m
  cases stack with
  | nil => exact ⟨rfl, by intro m hm; cases hm⟩
  | cons f fs =>
    have hf := hm.frames f (by simp)
    have hfs : ∀ g ∈ fs, FrameGood P g := fun g hg => hm.frames g (by simp [hg])
    have hb := hm.below
    have htr := hm.trie
    simp only [List.tail_cons] at hb
    simp only [stepMach]
    cases hv : f.visit with
    | cons cur rest =>
      exact stepCur_agree hf hfs hb htr (hf.visit cur (by rw [hv]; simp)) (fun c hc => hf.visit c (by rw [hv]; simp [hc])) G hpr hch hO hOP hQ hQP hv
    | nil =>
      refine ⟨rfl, ?_⟩
      dsimp only
      split
      · rename_i v hl
        have hP := (hf.vals f.init v hl).1
        split
        · intro m hm; cases hm
        · rename_i g gs
          split
          · intro m hm; cases hm
          · rename_i c r hgv
            intro m hm
            cases hm
            have hg := hfs g (by simp)
            refine mach_of (hg.set (fun d hd => hg.visit d (by rw [hgv]; simp [hd])) hP (fun h => absurd h (hb g (by simp) c r hgv)))
              (fun g' h => hfs g' (by simp [h])) (fun g' h => hb g' (by simp [h])) ?_
            split
            · exact lookup_cons_good htr (by rintro w ⟨⟩; exact hP)
            · exact htr
      · intro m hm; cases hm

theorem runMach_agree (G : Good env P) (hpr : ∀ cs, P (.node PROOF cs) ↔ ∀ c ∈ cs, P c) (hch : ∀ t, P t → ∀ c ∈ t.children, P c)
    (hO : ∀ k cs, (∀ c ∈ cs, P c) → O' k cs = O k cs) (hOP : ∀ k cs v, (∀ c ∈ cs, P c) → O k cs = .ok (some v) → P v)
    (hQ : ∀ cs, (∀ c ∈ cs, P c) → Q' cs = Q cs) (hQP : ∀ cs body ctx, (∀ c ∈ cs, P c) → Q cs = .ok (some (body, ctx)) → P body ∧ CtxGood P ctx) :
    ∀ (n : Nat) {m : Mach}, MachGood P m → runMach O' Q' n m = runMach O Q n m
  | 0, _, _ => rfl
  | n+1, m, hm => by
    obtain ⟨h1, h2⟩ := stepMach_agree G hpr hch hO hOP hQ hQP hm
    simp only [runMach, h1]
    split
    · rename_i m' h3
      exact runMach_agree G hpr hch hO hOP hQ hQP n (h2 m' h3)
    · rfl
    · rfl
    · rfl

end

/-- evaluation and typing of terms with `P` are the same in environments that say the same about terms with `P` -/
theorem ops_agree (G : Good env P) (hpr : ∀ cs, P (.node PROOF cs) ↔ ∀ c ∈ cs, P c) (hE : SameOn env env' P) : ∀ n, OpsAgree P (ops env n) (ops env' n)
  | 0 => ⟨fun _ _ _ _ => rfl, fun _ _ _ => rfl, fun _ _ => rfl⟩
  | n+1 => by
    have ih := ops_agree G hpr hE n
    have ho := ops_good G n
    have hch : ∀ t, P t → ∀ c ∈ t.children, P c := by
      intro t ht
      by_cases hk : t.kind = PROOF
      · cases t with
        | sym k i => simp [Term.children]
        | lit l => simp [Term.children]
        | node k cs => simp only [Term.kind] at hk; subst hk; exact (hpr cs).1 ht
      · exact G.children hk ht
    refine ⟨?_, fun k args hc => opStep_agree G hE ho ih hc, fun t ht => typeStep_agree G hE ho ih hch ht⟩
    intro t ctx ht hctx
    refine runMach_agree G hpr hch ih.evalOp (fun k cs v hc h => ho.evalOp k cs v hc h) (fun cs hc => evalProgram_agree hE hc)
      (fun cs body c hc h => evalProgram_good G hc h) n ⟨?_, by simp [initMach], by simp [initMach]⟩
    intro f hf
    simp only [initMach, List.mem_singleton] at hf
    subst hf
    exact ⟨hctx, by simp, by simpa using ht⟩

end Ethos.Props
