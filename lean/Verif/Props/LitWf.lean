import Verif.Props.Conversions
/-
Property theorems C07 (well-formedness), C08 (strings survive printing), C10 (bit-vectors survive printing).
-/
namespace Ethos.Props
open Ethos Kind Lit Spec

/-! ## C07 -/

def WfBV (b : BV) : Prop := b.value < 2^b.size ∧ b.size < 2^32

private theorem mk'_wf (n : Nat) (v : Int) (h : n < 2^32) : WfBV (BV.mk' n v) := by
  rw [mk'_eq]; exact ⟨(BitVec.ofInt n v).isLt, h⟩

private theorem u32_lt (z : Int) : u32 z < 2^32 := by unfold u32; omega

private theorem toUnsignedInt_lt (z : Int) : Integer.toUnsignedInt z < 2^32 := by
  unfold Integer.toUnsignedInt; omega

private theorem zero_wf : WfBV (BV.zero 0) := ⟨by decide, by decide⟩

private theorem bvStep_wf (k : Kind) (a b r : BV) (ha : WfBV a) (h : bvStep k a b = some r) : WfBV r := by
  unfold bvStep at h
  split at h <;> simp at h <;> subst h
  · exact mk'_wf _ _ ha.2
  · exact mk'_wf _ _ ha.2
  · exact mk'_wf _ _ ha.2
  · exact mk'_wf _ _ ha.2
  · exact mk'_wf _ _ ha.2
  · exact mk'_wf _ _ (u32_lt _)

private theorem foldOpt_wf (k : Kind) : ∀ (l : List BV) (a r : BV), WfBV a →
    foldOpt (bvStep k) a l = some r → WfBV r
  | [], a, r, ha, h => by simp [foldOpt] at h; exact h ▸ ha
  | b :: l, a, r, ha, h => by
    simp only [foldOpt] at h
    split at h
    · rename_i r' hr'
      exact foldOpt_wf k l r' r (bvStep_wf k a b r' ha hr') h
    · simp at h

private theorem addChar_wf (c : Nat) : ∀ d ∈ Str.addChar c, d < 196608 := by
  intro d hd
  unfold Str.addChar at hd
  split at hd
  · simp at hd
  · simp at hd; omega

private theorem toInternal_noesc_wf (s : List Nat) : ∀ d ∈ Str.toInternal s false, d < 196608 := by
  unfold Str.toInternal
  generalize s.length = f
  induction f generalizing s with
  | zero => simp [Str.toInternalF]
  | succ f ih =>
    cases s with
    | nil => simp [Str.toInternalF]
    | cons c s =>
      intro d hd
      simp [Str.toInternalF] at hd
      rcases hd with hd | hd
      · exact addChar_wf c d hd
      · exact ih s d hd

private theorem extract_wf (mk : BV → Lit) (hmk : ∀ b, WfBV b → WfLit (mk b)) (b : BV) (i j : Int) :
    WfLit (extractBV mk b i j) := by
  unfold extractBV
  dsimp only
  split
  · exact hmk _ zero_wf
  · split <;> split
    · exact hmk _ zero_wf
    · exact hmk _ (mk'_wf _ _ (u32_lt _))
    · exact hmk _ zero_wf
    · exact hmk _ (mk'_wf _ _ (u32_lt _))

private theorem extractStr_wf (s : List Nat) (hs : ∀ c ∈ s, c < 196608) (i j : Int) : WfLit (extractStr s i j) := by
  unfold extractStr
  dsimp only
  split
  · simp [WfLit]
  · intro c hc
    exact hs c (List.mem_of_mem_drop (List.mem_of_mem_take hc))

private theorem foldl_append_mem (l : List (List Nat)) (s : List Nat) (c : Nat)
    (h : c ∈ l.foldl (· ++ ·) s) : c ∈ s ∨ ∃ t ∈ l, c ∈ t := by
  induction l generalizing s with
  | nil => exact Or.inl h
  | cons t l ih =>
    rcases ih _ h with h | ⟨t', ht', hc⟩
    · rcases List.mem_append.mp h with h | h
      · exact Or.inl h
      · exact Or.inr ⟨t, by simp, h⟩
    · exact Or.inr ⟨t', by simp [ht'], hc⟩

private theorem ofOpt_val {α : Type} (f : α → Lit) (o : Option α) (r : Lit) (h : ofOpt f o = .val r) :
    ∃ a, o = some a ∧ r = f a := by
  cases o <;> simp [ofOpt] at h; exact ⟨_, rfl, h.symm⟩

private theorem evalNary_wf (k : Kind) (a : Lit) (as : List Lit) (r : Lit) (hw : ∀ x ∈ a :: as, WfLit x)
    (h : evalNary k a as = .val r) : WfLit r := by
  unfold evalNary at h
  cases a with
  | bool b => obtain ⟨_, _, rfl⟩ := ofOpt_val _ _ _ h; trivial
  | num z => obtain ⟨_, _, rfl⟩ := ofOpt_val _ _ _ h; trivial
  | dec q => obtain ⟨_, _, rfl⟩ := ofOpt_val _ _ _ h; trivial
  | rat q => obtain ⟨_, _, rfl⟩ := ofOpt_val _ _ _ h; trivial
  | hex b =>
    dsimp only at h
    split at h
    · simp at h
    · obtain ⟨x, hx, rfl⟩ := ofOpt_val _ _ _ h
      exact foldOpt_wf k _ b x (hw (hex b) (by simp)) hx
  | bin b =>
    dsimp only at h
    split at h
    · simp at h
    · obtain ⟨x, hx, rfl⟩ := ofOpt_val _ _ _ h
      exact foldOpt_wf k _ b x (hw (bin b) (by simp)) hx
  | str s =>
    dsimp only at h
    split at h
    · simp at h
      subst h
      intro c hc
      rcases foldl_append_mem _ _ _ hc with hc | ⟨t, ht, hc⟩
      · exact hw (str s) (by simp) c hc
      · obtain ⟨l, hl, rfl⟩ := List.mem_map.mp ht
        cases l <;> simp [asStr] at hc
        exact hw (str _) (by simp [hl]) c hc
    · simp at h

/-- C07: every literal computed by any operator from well-formed literals is well formed. -/
theorem C07_evaluate_wf (k : Kind) (args : List Lit) (r : Lit) (hw : ∀ a ∈ args, WfLit a)
    (h : evaluate k args = .val r) : WfLit r := by
  unfold evaluate at h
  cases args with
  | nil => simp at h
  | cons a as =>
    dsimp only at h
    split at h
    · simp at h
    have ha : WfLit a := hw a (by simp)
    split at h
    case h_2 | h_3 | h_4 | h_5 | h_6 | h_7 => exact evalNary_wf _ a as r hw h
    case h_1 =>
      split at h <;> simp at h <;> subst h
      · trivial
      · exact mk'_wf _ _ ha.2
      · exact mk'_wf _ _ ha.2
    case h_8 =>
      split at h <;> simp at h <;> subst h
      · trivial
      · trivial
      · trivial
      · exact mk'_wf _ _ (mk'_wf _ _ ha.2).2
      · exact mk'_wf _ _ (mk'_wf _ _ ha.2).2
    case h_9 =>
      split at h <;> (try split at h) <;> simp at h <;> subst h
      · trivial
      · unfold BV.unsignedDivTotal; split <;> exact mk'_wf _ _ ha.2
      · unfold BV.unsignedDivTotal; split <;> exact mk'_wf _ _ ha.2
    case h_10 =>
      split at h <;> (try split at h) <;> simp at h <;> subst h
      · trivial
      · unfold BV.unsignedRemTotal; split <;> exact mk'_wf _ _ ha.2
      · unfold BV.unsignedRemTotal; split <;> exact mk'_wf _ _ ha.2
    case h_11 => split at h <;> (try split at h) <;> simp at h <;> subst h <;> trivial
    case h_12 => split at h <;> simp at h <;> subst h <;> trivial
    case h_13 => split at h <;> simp at h <;> subst h <;> trivial
    case h_14 =>
      split at h
      · simp at h
      · simp at h
      · simp at h
      · split at h
        · split at h <;> simp at h <;> subst h
          · exact extract_wf hex (fun _ h => h) _ _ _
          · exact extract_wf bin (fun _ h => h) _ _ _
          · exact extractStr_wf _ ha _ _
        · simp at h
    case h_15 => split at h <;> simp at h <;> subst h <;> trivial
    case h_16 => split at h <;> simp at h <;> subst h <;> trivial
    case h_17 =>
      split at h
      · split at h
        · split at h <;> simp at h <;> subst h <;> exact mk'_wf _ _ (toUnsignedInt_lt _)
        · simp at h
      · simp at h
    case h_18 =>
      unfold evalToString at h
      split at h
      · simp at h; subst h; exact toInternal_noesc_wf _
      · split at h
        · rename_i hc
          simp at h; subst h; intro c h'; simp at h'; subst h'; exact hc.2
        · simp at h; subst h; exact toInternal_noesc_wf _
      · simp at h; subst h; exact toInternal_noesc_wf _
      · simp only [Res.val.injEq] at h; subst h; exact toInternal_noesc_wf _
      · simp only [Res.val.injEq] at h; subst h; exact toInternal_noesc_wf _
      · simp at h; subst h; exact ha
      · simp at h
    case h_19 => split at h <;> simp at h <;> subst h <;> trivial
    case h_20 =>
      split at h
      · simp at h
      · split at h <;> simp at h <;> subst h <;> trivial
      · simp at h
    case h_21 => simp at h

/-- closed expressions over computational operators -/
inductive LExp where
  | lit (l : Lit)
  | app (k : Kind) (args : List LExp)

/-- evaluation of nested operator applications, innermost first -/
inductive LEval : LExp → Lit → Prop
  | lit (l) : LEval (.lit l) l
  | app (k) (es : List LExp) (ls : List Lit) (r) :
      es.length = ls.length → (∀ p ∈ es.zip ls, LEval p.1 p.2) → evaluate k ls = .val r → LEval (.app k es) r

inductive LExp.Wf : LExp → Prop
  | lit (l) : WfLit l → Wf (.lit l)
  | app (k es) : (∀ e ∈ es, Wf e) → Wf (.app k es)

/-- C07 for whole computations of any depth. -/
theorem C07_closed (e : LExp) (r : Lit) (hw : e.Wf) (h : LEval e r) : WfLit r := by
  induction h with
  | lit l => cases hw; assumption
  | app k es ls r hl _ he ih =>
    cases hw with
    | app _ _ hes =>
      refine C07_evaluate_wf k ls r ?_ he
      intro l hlm
      obtain ⟨i, hi, rfl⟩ := List.mem_iff_getElem.mp hlm
      have hi' : i < es.length := by omega
      have hm : (es[i], ls[i]) ∈ es.zip ls := by
        rw [List.mem_iff_getElem]
        exact ⟨i, by simp; omega, by simp⟩
      exact ih _ hm (hes _ (List.getElem_mem hi'))

/-- C07: two well-formed bit-vectors of one category denote the same literal exactly when the widths
and the values modulo `2^width` agree. -/
theorem C07_canonical (b b' : BV) (h : WfLit (.bin b)) (h' : WfLit (.bin b')) :
    b = b' ↔ b.size = b'.size ∧ b.value % 2^b.size = b'.value % 2^b'.size := by
  obtain ⟨s, v⟩ := b
  obtain ⟨s', v'⟩ := b'
  simp only [WfLit] at h h'
  rw [Nat.mod_eq_of_lt h.1, Nat.mod_eq_of_lt h'.1]
  simp

/-- The bound in `WfLit` cannot be dropped from the hypotheses: an ill-formed value is not repaired. -/
example : ¬ WfLit (.bin ⟨2, 9⟩) := by simp [WfLit]
example : WfLit (.bin ⟨4, 9⟩) ∧ evaluate EVAL_ADD [bin ⟨4, 9⟩, bin ⟨4, 9⟩] = .val (bin ⟨4, 2⟩) := by
  constructor
  · simp [WfLit]
  · decide
example : LEval (.app EVAL_NOT [.app EVAL_ADD [.lit (bin ⟨4, 9⟩), .lit (bin ⟨4, 9⟩)]]) (bin ⟨4, 13⟩) := by
  refine LEval.app _ _ [bin ⟨4, 2⟩] _ rfl ?_ (by decide)
  intro p hp
  simp at hp; subst hp
  refine LEval.app _ _ [bin ⟨4, 9⟩, bin ⟨4, 9⟩] _ rfl ?_ (by decide)
  intro p hp
  simp at hp; subst hp
  exact LEval.lit _

/-! ## C08 -/

private theorem escLoop_hex (ds rest : List Nat) : ∀ (hex cache : List Nat),
    (∀ c ∈ ds, Str.isHexDigit c = true ∧ c ≠ 125 ∧ c ≠ 123) → hex.length + ds.length ≤ 5 → (hex ++ ds) ≠ [] →
    ∃ cache', Str.escLoop false true hex cache (ds ++ 125 :: rest) = ⟨true, true, hex ++ ds, cache', rest⟩ := by
  induction ds with
  | nil =>
    intro hex cache _ _ hne
    refine ⟨cache ++ Str.addChar 125, ?_⟩
    simp at hne
    cases hex with
    | nil => exact absurd rfl hne
    | cons a l => simp [Str.escLoop]
  | cons d ds ih =>
    intro hex cache hd hlen _
    have h1 := hd d (by simp)
    have hlen' : (hex ++ [d]).length + ds.length ≤ 5 := by simp at hlen ⊢; omega
    obtain ⟨c', hc'⟩ := ih (hex ++ [d]) (cache ++ Str.addChar d) (fun c hc => hd c (by simp [hc])) hlen' (by simp)
    refine ⟨c', ?_⟩
    rw [List.cons_append, Str.escLoop]
    have hx : ¬ ((hex ++ [d]).length > 5) := by simp at hlen ⊢; omega
    simp only [Bool.false_and, Bool.false_eq_true, if_false, Bool.not_false, Bool.true_and, beq_iff_eq,
      h1.2.1, h1.1, Bool.not_true, Bool.false_and, decide_eq_true_eq, hx]
    rw [hc']
    simp

private theorem hexchar_ok (c : Nat) (h : (48 ≤ c ∧ c ≤ 57) ∨ (97 ≤ c ∧ c ≤ 102)) :
    Str.isHexDigit c = true ∧ c ≠ 125 ∧ c ≠ 123 := by
  refine ⟨?_, by omega, by omega⟩
  unfold Str.isHexDigit Str.isDigit
  rcases h with h | h <;> simp [h]

private theorem escape_print (c : Nat) (hc : c < 196608) (rest : List Nat) :
    Str.escape ([117, 123] ++ Integer.natToString 16 c ++ 125 :: rest) = ([c], rest) := by
  have hlen : (Integer.natToString 16 c).length ≤ 5 :=
    natToString_length_le 16 c 5 (by decide) (by omega) (by decide)
  obtain ⟨cache', h⟩ := escLoop_hex (Integer.natToString 16 c) rest [] (Str.addChar 92 ++ Str.addChar 117 ++ Str.addChar 123)
    (fun d hd => hexchar_ok d (natToString_chars 16 c (by decide) (by decide) d hd)) (by simpa using hlen)
    (by simpa using natToString_ne_nil 16 c)
  simp only [List.cons_append, List.nil_append, List.append_assoc] at h ⊢
  have h2 : Str.escLoop true false [] (Str.addChar 92 ++ Str.addChar 117)
      (123 :: (Integer.natToString 16 c ++ 125 :: rest)) = ⟨true, true, Integer.natToString 16 c, cache', rest⟩ := by
    rw [Str.escLoop.eq_def]
    simp only [beq_self_eq_true, Bool.and_self, if_true, List.append_assoc]
    exact h
  simp only [Str.escape, h2]
  simp only [Bool.and_self, if_true]
  rw [natOfString_natToString 16 c (by decide) (by decide), if_neg]
  unfold Str.numCodes; omega

/-- C08: reading (with escape sequences, as the parser does) the characters written by the printer gives
back the string. -/
theorem C08_round_trip (s : List Nat) (h : WfLit (.str s)) :
    Str.toInternal (Lit.toString (.str s)) true = s := by
  have key : ∀ (s : List Nat) (f : Nat), (∀ c ∈ s, c < 196608) → (Str.toString s).length ≤ f →
      Str.toInternalF true f (Str.toString s) = s := by
    intro s
    induction s with
    | nil => intro f _ _; cases f <;> rfl
    | cons c s ih =>
      intro f hs hf
      have hc := hs c (by simp)
      have hs' : ∀ c ∈ s, c < 196608 := fun c hc => hs c (by simp [hc])
      simp only [Str.toString, List.flatMap_cons] at hf ⊢
      by_cases hp : (Str.isPrintable c && c != 92) = true
      · have hpc : Str.printChar c = [c] := by unfold Str.printChar; rw [if_pos hp]
        rw [hpc] at hf ⊢
        simp only [Bool.and_eq_true, bne_iff_ne, ne_eq, Str.isPrintable, decide_eq_true_eq] at hp
        cases f with
        | zero => simp at hf
        | succ f =>
          simp only [List.singleton_append, Str.toInternalF]
          have h92 : (c != 92) = true := by simp [hp.2]
          simp only [h92, Bool.true_or, if_true]
          have := ih f hs' (by simp [Str.toString] at hf ⊢; omega)
          simp only [Str.toString] at this
          rw [this]
          have : ¬ (c > 127 ∨ c < 32) := by omega
          simp [Str.addChar, this]
      · have hpc : Str.printChar c = [92, 117, 123] ++ Integer.natToString 16 c ++ [125] := by
          unfold Str.printChar; rw [if_neg hp]
        rw [hpc] at hf ⊢
        cases f with
        | zero => simp at hf
        | succ f =>
          have he := escape_print c hc (s.flatMap Str.printChar)
          simp only [List.cons_append, List.nil_append, List.append_assoc] at he hf ⊢
          rw [Str.toInternalF]
          simp only [show ((92 : Nat) != 92) = false from rfl, Bool.false_or, Bool.not_true, Bool.false_eq_true, if_false]
          rw [he]
          have := ih f hs' (by simp [Str.toString] at hf ⊢; omega)
          simp only [Str.toString] at this
          simp [this]
  exact key s _ h (Nat.le_refl _)

/-- C08: hence different strings are printed differently. -/
theorem C08_injective (s t : List Nat) (hs : WfLit (.str s)) (ht : WfLit (.str t))
    (h : Lit.toString (.str s) = Lit.toString (.str t)) : s = t := by
  rw [← C08_round_trip s hs, h, C08_round_trip t ht]

/-- C08: everything the printer writes for a string is printable ASCII. -/
theorem C08_ascii (s : List Nat) : ∀ c ∈ Lit.toString (.str s), 32 ≤ c ∧ c ≤ 126 := by
  intro c hc
  simp only [Lit.toString, Str.toString, List.mem_flatMap] at hc
  obtain ⟨d, _, hc⟩ := hc
  unfold Str.printChar at hc
  split at hc
  · rename_i hp
    simp [Str.isPrintable] at hp hc
    omega
  · simp only [List.mem_append] at hc
    rcases hc with (hc | hc) | hc
    · simp at hc; omega
    · have := natToString_chars 16 d (by decide) (by decide) c hc; omega
    · simp at hc; omega

/-- C08: the reader only produces well-formed strings. -/
theorem C08_reader_wf (s : List Nat) : WfLit (.str (Str.toInternal s true)) := by
  have hcache : ∀ (l : List Nat) (a b : Bool) (hex cache : List Nat), (∀ d ∈ cache, d < 196608) →
      ∀ d ∈ (Str.escLoop a b hex cache l).nonEscCache, d < 196608 := by
    intro l
    induction l with
    | nil => intro a b hex cache h; simpa [Str.escLoop] using h
    | cons c l ih =>
      intro a b hex cache h
      have h' : ∀ d ∈ cache ++ Str.addChar c, d < 196608 := by
        intro d hd
        rcases List.mem_append.mp hd with hd | hd
        · exact h d hd
        · exact addChar_wf c d hd
      rw [Str.escLoop]
      split
      · exact ih _ _ _ _ h'
      · split
        · exact h'
        · split
          · exact h
          · dsimp only
            split
            · exact h'
            · split
              · exact h'
              · exact ih _ _ _ _ h'
  have hesc : ∀ l, ∀ d ∈ (Str.escape l).1, d < 196608 := by
    intro l
    unfold Str.escape
    split
    · dsimp only
      have hc := hcache ‹_› true false [] (Str.addChar 92 ++ Str.addChar 117) (by
        intro d hd
        rcases List.mem_append.mp hd with hd | hd <;> exact addChar_wf _ d hd)
      split
      · split
        · exact hc
        · rename_i hv
          intro d hd; simp at hd; subst hd; unfold Str.numCodes at hv; omega
      · exact hc
    · exact addChar_wf 92
  show ∀ d ∈ Str.toInternal s true, d < 196608
  unfold Str.toInternal
  generalize s.length = f
  induction f generalizing s with
  | zero => simp [Str.toInternalF]
  | succ f ih =>
    cases s with
    | nil => simp [Str.toInternalF]
    | cons c s =>
      intro d hd
      rw [Str.toInternalF] at hd
      split at hd
      · rcases List.mem_append.mp hd with hd | hd
        · exact addChar_wf c d hd
        · exact ih s d hd
      · rcases List.mem_append.mp hd with hd | hd
        · exact hesc s d hd
        · exact ih _ d hd

example : Lit.toString (.str [97, 92, 0xAB0E]) = [97, 92,117,123,53,99,125, 92,117,123,97,98,48,101,125] := by decide
example : WfLit (.str [97, 92, 0xAB0E]) := by simp [WfLit]

/-! ## C10 -/

/-- C10, binary: reading back the printed digits gives the same width and value. -/
theorem C10_binary (b : BV) (h : WfLit (.bin b)) : BV.ofString (Lit.toString (.bin b)) 2 = b := by
  obtain ⟨x, hx⟩ := C03_cover b h.1
  have hw := h.2
  generalize b.size = w at x hw hx
  subst hx
  simp only [Lit.toString]
  rw [bin_toString]
  unfold BV.ofString
  have hl : (bitString x).length = w := by simp [bitString]
  have hu : u32 ((bitString x).length : Int) = w := by rw [hl]; unfold u32; omega
  simp only [hu, show ¬ (2 = 16) by decide, if_false]
  unfold bvOf
  congr 1
  unfold Integer.natOfString
  have hp := positional_foldl 2 ((List.range w).map (fun i => (x.getMsbD i).toNat)) 0
  rw [bitString_positional] at hp
  simp only [Nat.zero_mul, Nat.zero_add] at hp
  rw [← hp]
  unfold bitString
  rw [List.foldl_map, List.foldl_map]
  congr 1
  funext acc i
  cases x.getMsbD i <;> rfl

/-- C10, hexadecimal: true exactly when the leading digit is not zero and the width is a multiple of four
(the printer drops leading zeros). -/
theorem C10_hex_partial (k : Nat) (v : Nat) (hk : 4 * (k + 1) < 2^32) (hlo : 16 ^ k ≤ v) (hhi : v < 16 ^ (k + 1)) :
    BV.ofString (Lit.toString (.hex ⟨4 * (k + 1), v⟩)) 16 = ⟨4 * (k + 1), v⟩ := by
  have hs : Lit.toString (.hex ⟨4 * (k + 1), v⟩) = Integer.natToString 16 v := by
    simp [Lit.toString, BV.toString]
  rw [hs]
  unfold BV.ofString
  have hle := natToString_length_le 16 v (k + 1) (by decide) hhi (by omega)
  have hge : k + 1 ≤ (Integer.natToString 16 v).length := by
    apply Classical.byContradiction
    intro hlt
    -- a string of at most k hex digits denotes a value below 16^k
    obtain ⟨ds, _, hm, hd, _, hv⟩ := natToString_notation 16 v (by decide) (by decide)
    have hl : ds.length = (Integer.natToString 16 v).length := by
      have := congrArg List.length hm; simpa using this.symm
    have bnd : ∀ l : List Nat, (∀ d ∈ l, d < 16) → positional 16 l < 16 ^ l.length := by
      intro l
      induction l with
      | nil => intro _; simp [positional]
      | cons d l ih =>
        intro hd
        have := ih (fun d h => hd d (by simp [h]))
        have hdb := hd d (by simp)
        simp only [positional, List.length_cons, Nat.pow_succ]
        have := Nat.mul_le_mul_right (16 ^ l.length) (show d + 1 ≤ 16 from hdb)
        rw [Nat.add_mul] at this
        omega
    have h1 := bnd ds hd
    have h2 := Nat.pow_le_pow_right (show 0 < 16 by decide) (show ds.length ≤ k by omega)
    omega
  have hlen : (Integer.natToString 16 v).length = k + 1 := by omega
  simp only [if_true, hlen, natOfString_natToString 16 v (by decide) (by decide)]
  congr 1
  unfold u32; omega

/-- C10 is false for hexadecimal values with a leading zero: `#x0f` is printed `#xf`. -/
theorem C10_hex_refuted : ¬ ∀ b : BV, WfLit (.hex b) → b.size % 4 = 0 →
    BV.ofString (Lit.toString (.hex b)) 16 = b := by
  intro h
  have := h ⟨8, 15⟩ ⟨by decide, by decide⟩ (by decide)
  revert this
  decide

/-- C10: consequently two different hexadecimal values are printed alike. -/
theorem C10_hex_ambiguous : Lit.toString (.hex ⟨8, 15⟩) = Lit.toString (.hex ⟨4, 15⟩) := by decide

example : BV.ofString (Lit.toString (.bin ⟨5, 3⟩)) 2 = ⟨5, 3⟩ ∧ Lit.toString (.bin ⟨5, 3⟩) = [48,48,48,49,49] := by decide
example : BV.ofString (Lit.toString (.hex ⟨8, 0xf0⟩)) 16 = ⟨8, 0xf0⟩ := by decide

/-- C10: a hexadecimal token normalised to binary keeps width and value
(expr_parser.cpp:317-329 with `--normalize-hex`). -/
theorem C10_normalize (s : List Nat) (h : WfLit (.hex (BV.ofString s 16))) :
    BV.ofString (Lit.toString (.bin (BV.ofString s 16))) 2 = BV.ofString s 16 :=
  C10_binary _ h

end Ethos.Props
