import Verif.Props.LayoutDocs
import Verif.Props.DirectCleanConc
import Mathlib.Tactic.Linarith
import Mathlib.Algebra.Order.Ring.Int

/-! # C185: storage layouts do not crash -/

namespace Gocfl

/-- the computation ends in a run-time panic -/
def Panics {α : Type} (r : Res α) : Prop := ∃ m, r = .error (.panic m)

/-- Which configurations crash, and on which ids. -/
def LayoutCrashes (hashes : Str → Option (Str → Str)) (l : Layout) (id : Str) : Prop :=
  match l with
  | .flatDirect => False
  | .pathDirect => False
  | .flatOmit _ => False
  /- a negative tuple size -/
  | .hashId _ c => 0 < c.numberOfTuples ∧ c.tupleSize < 0
  | .hashed _ c => 0 < c.numberOfTuples ∧ c.tupleSize < 0 ∨ c.shortObjectRoot = true ∧ c.numberOfTuples < 0 ∧ 0 < c.tupleSize
  /- tuple size 0 or negative, or the padding is neither `left` nor `right` and something of the id is left -/
  | .tupleOmit c => c.tupleSize = 0 ∨ 0 < c.numberOfTuples ∧ (c.tupleSize < 0 ∨
      c.zeroPadding ≠ "left".toList ∧ c.zeroPadding ≠ "right".toList ∧ id ≠ [] ∧ (c.delimiter = [] ∨ ¬ c.delimiter <:+ id))
  | .pairtree _ n => n = 0
  /- on ids that need the fallback: a negative segment length greater than the digest, or sub folders beyond its end -/
  | .directClean alg c => ∃ n hash, dcHashed c id = some n ∧ hashes alg = some hash ∧
      (c.maxSegment < 0 ∧ 0 < (hash n).length ∧ ((hash n).length : Int) < -c.maxSegment ∨
        0 < c.tuples ∧ (c.tupleSize < 0 ∨ ((hash n).length : Int) < c.tuples - 1 + c.tupleSize))

/-! ## Lists of slices -/

theorem panics_bind {α β : Type} {x : Res α} {f : α → Res β} : Panics (x >>= f) ↔ Panics x ∨ ∃ a, x = .ok a ∧ Panics (f a) := by
  cases x with
  | ok a =>
    rw [res_bind_ok]
    constructor
    · intro h; exact Or.inr ⟨a, rfl, h⟩
    · rintro (⟨m, h⟩ | ⟨b, hb, h⟩)
      · cases h
      · cases hb; exact h
  | error e =>
    show Panics (Except.error e : Res β) ↔ _
    constructor
    · rintro ⟨m, h⟩; cases h; exact Or.inl ⟨m, rfl⟩
    · rintro (⟨m, h⟩ | ⟨b, hb, h⟩)
      · cases h; exact ⟨m, rfl⟩
      · cases hb

theorem not_panics_ok {α : Type} {a : α} : ¬ Panics (.ok a : Res α) := by rintro ⟨m, h⟩; cases h

theorem goSlice_panics {s : Str} {a b : Int} : Panics (goSlice s a b) ↔ ¬ (0 ≤ a ∧ a ≤ b ∧ b ≤ s.length) := by
  unfold goSlice
  split
  · rename_i h; exact ⟨fun hp => absurd hp not_panics_ok, fun hc => absurd h hc⟩
  · rename_i h; exact ⟨fun _ => h, fun _ => ⟨_, rfl⟩⟩

/-- slices are taken or the program crashes -/
theorem slices_panics {ι : Type} {s : Str} {lo hi : ι → Int} {l : List ι} :
    Panics (l.mapM (fun i => goSlice s (lo i) (hi i))) ↔ ∃ i ∈ l, ¬ (0 ≤ lo i ∧ lo i ≤ hi i ∧ hi i ≤ s.length) := by
  induction l with
  | nil => exact ⟨fun h => absurd h not_panics_ok, fun ⟨i, hi, _⟩ => by cases hi⟩
  | cons a l ih =>
    rw [List.mapM_cons, panics_bind, goSlice_panics]
    simp only [panics_bind, ih, List.mem_cons, exists_eq_or_imp]
    constructor
    · rintro (h | ⟨x, hx, h | ⟨y, hy, h⟩⟩)
      · exact Or.inl h
      · exact Or.inr h
      · exact absurd h not_panics_ok
    · rintro (h | h)
      · exact Or.inl h
      · by_cases hc : 0 ≤ lo a ∧ lo a ≤ hi a ∧ hi a ≤ s.length
        · refine Or.inr ⟨_, by unfold goSlice; rw [if_pos hc], Or.inl h⟩
        · exact Or.inl hc

/-- the tuples of a string -/
theorem blocks_panics {d : Str} {s : Int} {n : Nat} :
    Panics ((List.range n).mapM (fun (i : Nat) => goSlice d ((i : Int) * s) (((i : Int) + 1) * s))) ↔
      0 < n ∧ (s < 0 ∨ (d.length : Int) < s * n) := by
  rw [slices_panics]
  constructor
  · rintro ⟨i, hi, h⟩
    have hi := List.mem_range.1 hi
    refine ⟨by omega, ?_⟩
    by_contra hc
    push Not at hc
    apply h
    refine ⟨mul_nonneg (by omega) hc.1, ?_, ?_⟩
    · nlinarith [hc.1]
    · refine le_trans ?_ hc.2
      rw [mul_comm]
      exact mul_le_mul_of_nonneg_left (by omega) hc.1
  · rintro ⟨hn, h | h⟩
    · exact ⟨0, List.mem_range.2 hn, by push_cast; omega⟩
    · refine ⟨n - 1, List.mem_range.2 (by omega), ?_⟩
      rintro ⟨_, _, h3⟩
      have : ((n - 1 : Nat) : Int) + 1 = n := by omega
      rw [this, mul_comm] at h3
      omega

theorem tuples_panics {d : Str} {c : TupleCfg} :
    Panics (tuples d c) ↔ 0 < c.numberOfTuples ∧ (c.tupleSize < 0 ∨ (d.length : Int) < c.tupleSize * c.numberOfTuples) := by
  unfold tuples
  rw [blocks_panics]
  constructor
  · rintro ⟨h1, h2⟩
    have h0 : 0 < c.numberOfTuples := by omega
    rw [Int.toNat_of_nonneg (le_of_lt h0)] at h2
    exact ⟨h0, h2⟩
  · rintro ⟨h1, h2⟩
    rw [Int.toNat_of_nonneg (le_of_lt h1)]
    exact ⟨by omega, h2⟩

/-! ## The layouts -/

theorem layout0003_panics {hash : Str → Str} {c : TupleCfg} {id : Str} :
    Panics (layout0003 hash c id) ↔ 0 < c.numberOfTuples ∧ c.tupleSize < 0 := by
  unfold layout0003
  split
  · rename_i h
    constructor
    · rintro ⟨m, hm⟩; cases hm
    · rintro ⟨h1, h2⟩
      have := mul_neg_of_neg_of_pos h2 h1
      omega
  · rename_i h
    rw [panics_bind, tuples_panics]
    constructor
    · rintro (⟨h1, h2 | h2⟩ | ⟨a, _, h2⟩)
      · exact ⟨h1, h2⟩
      · omega
      · exact absurd h2 not_panics_ok
    · rintro ⟨h1, h2⟩; exact Or.inl ⟨h1, Or.inl h2⟩

theorem layout0004_panics {hash : Str → Str} {c : TupleCfg} {id : Str} :
    Panics (layout0004 hash c id) ↔
      0 < c.numberOfTuples ∧ c.tupleSize < 0 ∨ c.shortObjectRoot = true ∧ c.numberOfTuples < 0 ∧ 0 < c.tupleSize := by
  unfold layout0004
  split
  · rename_i h
    constructor
    · rintro ⟨m, hm⟩; cases hm
    · rintro (⟨h1, h2⟩ | ⟨_, h1, h2⟩)
      · have := mul_neg_of_neg_of_pos h2 h1; omega
      · have := mul_neg_of_pos_of_neg h2 h1; omega
  · rename_i h
    rw [panics_bind, tuples_panics]
    constructor
    · rintro (⟨h1, h2 | h2⟩ | ⟨a, ha, h2⟩)
      · exact Or.inl ⟨h1, h2⟩
      · omega
      · rcases panics_bind.1 h2 with h3 | ⟨x, _, h3⟩
        · split at h3
          · rename_i hs
            rw [goSlice_panics, mul_comm] at h3
            have hneg : c.tupleSize * c.numberOfTuples < 0 := by omega
            rcases lt_trichotomy c.numberOfTuples 0 with h0 | h0 | h0
            · exact Or.inr ⟨hs, h0, by by_contra hc; have := mul_nonneg_of_nonpos_of_nonpos (by omega : c.tupleSize ≤ 0) (le_of_lt h0); omega⟩
            · rw [h0] at hneg; simp at hneg
            · exact Or.inl ⟨h0, by by_contra hc; have := mul_nonneg (by omega : 0 ≤ c.tupleSize) (le_of_lt h0); omega⟩
          · exact absurd h3 not_panics_ok
        · exact absurd h3 not_panics_ok
    · rintro (⟨h1, h2⟩ | ⟨hs, h1, h2⟩)
      · exact Or.inl ⟨h1, Or.inl h2⟩
      · right
        refine ⟨[], ?_, panics_bind.2 (Or.inl ?_)⟩
        · unfold tuples
          rw [Int.toNat_of_nonpos (le_of_lt h1)]; rfl
        · rw [if_pos hs, goSlice_panics]
          have := mul_neg_of_neg_of_pos h1 h2
          omega

theorem omitPrefix_nil {d id : Str} : omitPrefix d id = [] ↔ ¬ (id ≠ [] ∧ (d = [] ∨ ¬ d <:+ id)) := by
  by_cases hd : d = []
  · subst hd
    simp [omitPrefix]
  · rcases omitPrefix_spec (id := id) hd with ⟨h1, h2⟩ | ⟨pre, h1, h2⟩
    · rw [h2]
      constructor
      · rintro rfl; simp
      · intro h
        by_contra hne
        apply h
        refine ⟨hne, Or.inr ?_⟩
        rintro ⟨t, ht⟩
        exact h1 t [] (by rw [List.append_nil]; exact ht.symm)
    · constructor
      · intro h
        rw [h, List.append_nil] at h1
        rintro ⟨_, h3 | h3⟩
        · exact hd h3
        · exact h3 ⟨pre, h1.symm⟩
      · intro h
        have hne : id ≠ [] := by rw [h1]; simp [hd]
        by_contra hr
        apply h
        refine ⟨hne, Or.inr ?_⟩
        rintro ⟨t, ht⟩
        have hl := h2 t [] (by rw [List.append_nil]; exact ht.symm)
        have e1 := congrArg List.length h1
        have e2 := congrArg List.length ht
        have : 0 < (omitPrefix d id).length := List.length_pos_of_ne_nil hr
        simp only [List.length_append] at e1 e2
        omega

/-- the string the tuples of 0007 are taken from is long enough, or padding drops the id -/
theorem tupleSource_short {c : OmitCfg} {rest : Str} (hs : 0 < c.tupleSize) (hn : 0 < c.numberOfTuples) :
    ((tupleSource c rest).length : Int) < c.tupleSize * c.numberOfTuples ↔
      c.zeroPadding ≠ "left".toList ∧ c.zeroPadding ≠ "right".toList ∧ rest ≠ [] := by
  have hpos := mul_pos hs hn
  by_cases hp : c.zeroPadding = "left".toList ∨ c.zeroPadding = "right".toList
  · have h1 := zeroPad_length (id := rest) hp
    have h2 : (zeroPad c rest).length ≤ (tupleSource c rest).length := by
      unfold tupleSource
      split
      · exact reverseRunes_length _
      · exact le_refl _
    constructor
    · intro h; omega
    · rintro ⟨h3, h4, _⟩
      rcases hp with hp | hp
      · exact absurd hp h3
      · exact absurd hp h4
  · push Not at hp
    have hz : zeroPad c rest = List.replicate (c.tupleSize * c.numberOfTuples - rest.length).toNat '0' := by
      unfold zeroPad
      simp only
      rw [if_neg hp.2, if_neg hp.1]; simp
    have hl : (tupleSource c rest).length = (c.tupleSize * c.numberOfTuples - rest.length).toNat := by
      unfold tupleSource
      split
      · rw [reverseRunes_ascii, hz]
        · simp
        · intro x hx
          rw [hz] at hx
          rw [List.eq_of_mem_replicate hx]; decide
      · rw [hz]; simp
    rw [hl]
    constructor
    · intro h
      refine ⟨hp.1, hp.2, ?_⟩
      rintro rfl
      simp at h
    · rintro ⟨_, _, h⟩
      have := List.length_pos_of_ne_nil h
      omega

theorem layout0007_panics {c : OmitCfg} {id : Str} :
    Panics (layout0007 c id) ↔ c.tupleSize = 0 ∨ 0 < c.numberOfTuples ∧ (c.tupleSize < 0 ∨
      c.zeroPadding ≠ "left".toList ∧ c.zeroPadding ≠ "right".toList ∧ id ≠ [] ∧ (c.delimiter = [] ∨ ¬ c.delimiter <:+ id)) := by
  unfold layout0007
  simp only
  split
  · rename_i h; exact ⟨fun _ => Or.inl h, fun _ => ⟨_, rfl⟩⟩
  · rename_i h0
    rw [panics_bind, Int.mul_tdiv_cancel_left _ h0, blocks_panics]
    rw [← not_not (a := id ≠ [] ∧ _), ← omitPrefix_nil]
    constructor
    · rintro (⟨h1, h2⟩ | ⟨a, _, h2⟩)
      · have hn : 0 < c.numberOfTuples := by omega
        rw [Int.toNat_of_nonneg (le_of_lt hn)] at h2
        refine Or.inr ⟨hn, ?_⟩
        rcases lt_trichotomy c.tupleSize 0 with hs | hs | hs
        · exact Or.inl hs
        · exact absurd hs h0
        · rcases h2 with h2 | h2
          · exact Or.inl h2
          · exact Or.inr ((tupleSource_short (rest := omitPrefix c.delimiter id) hs hn).1 h2)
      · exact absurd h2 not_panics_ok
    · rintro (h | ⟨hn, h⟩)
      · exact absurd h h0
      · refine Or.inl ⟨by omega, ?_⟩
        rw [Int.toNat_of_nonneg (le_of_lt hn)]
        rcases lt_trichotomy c.tupleSize 0 with hs | hs | hs
        · exact Or.inl hs
        · exact absurd hs h0
        · rcases h with h | h
          · exact Or.inl h
          · exact Or.inr ((tupleSource_short (rest := omitPrefix c.delimiter id) hs hn).2 h)

theorem layoutPairtree_panics {n : Int} {id : Str} : Panics (layoutPairtree n id) ↔ n = 0 := by
  unfold layoutPairtree
  split
  · rename_i h; exact ⟨fun _ => h, fun _ => ⟨_, rfl⟩⟩
  · rename_i h
    refine ⟨?_, fun hc => absurd hc h⟩
    intro hp
    split at hp <;> exact absurd hp not_panics_ok

theorem digestPieces_panics {max : Int} {d : Str} (h0 : max ≠ 0) :
    Panics (digestPieces max d) ↔ max < 0 ∧ 0 < d.length ∧ (d.length : Int) < -max := by
  unfold digestPieces
  simp only
  rw [panics_bind, slices_panics]
  have hok : ∀ {x : Res (List Str)}, (∃ a, x = .ok a ∧ Panics (.ok (joinWith '/' a) : Res Str)) ↔ False :=
    ⟨fun ⟨a, _, h⟩ => not_panics_ok h, False.elim⟩
  rw [hok, or_false]
  have hdm := Int.mul_tdiv_add_tmod (d.length : Int) max
  have hm0 := Int.tmod_nonneg max (by omega : (0 : Int) ≤ d.length)
  rcases lt_or_gt_of_ne h0 with hneg | hpos
  · -- negative
    have hq : (d.length : Int).tdiv max ≤ 0 := by
      by_contra hc
      have : max * (d.length : Int).tdiv max < 0 := mul_neg_of_neg_of_pos hneg (by omega)
      have h2 : (d.length : Int).tmod max < -max := by
        have := Int.tmod_lt_of_pos (d.length : Int) (by omega : 0 < -max); rw [Int.tmod_neg] at this; exact this
      nlinarith
    constructor
    · rintro ⟨i, hi, h⟩
      have hi := List.mem_range.1 hi
      refine ⟨hneg, ?_⟩
      have hq0 : (d.length : Int).tdiv max = 0 := by
        split at hi <;> omega
      rw [hq0, mul_zero, zero_add] at hdm
      rw [hq0, hdm] at hi
      have h2 : (d.length : Int).tmod max < -max := by
        have := Int.tmod_lt_of_pos (d.length : Int) (by omega : 0 < -max); rw [Int.tmod_neg] at this; exact this
      rw [hdm] at h2
      refine ⟨?_, h2⟩
      split at hi <;> omega
    · rintro ⟨_, h1, h2⟩
      have e1 : (d.length : Int).tdiv max = 0 := by
        have := Int.tdiv_eq_zero_of_lt (by omega : (0 : Int) ≤ d.length) h2
        rw [Int.tdiv_neg] at this
        omega
      rw [e1, mul_zero, zero_add] at hdm
      refine ⟨0, List.mem_range.2 ?_, ?_⟩
      · rw [e1, hdm, if_pos (by omega)]; simp
      · push_cast
        omega
  · constructor
    · rintro ⟨i, hi, h⟩
      exfalso
      apply h
      have hi := List.mem_range.1 hi
      have hq : 0 ≤ (d.length : Int).tdiv max := Int.tdiv_nonneg (by omega) (by omega)
      have hle : (i : Int) * max ≤ d.length := by
        have hi2 : (i : Int) ≤ (d.length : Int).tdiv max := by split at hi <;> omega
        nlinarith
      refine ⟨mul_nonneg (by omega) (by omega), ?_, ?_⟩
      · rw [le_min_iff]; exact ⟨by nlinarith, hle⟩
      · exact min_le_right _ _
    · rintro ⟨h, _⟩; omega

theorem dcTuples_panics {c : DCCfg} {d : Str} (k : Nat) {r : Str} :
    Panics (dcTuples c d k r) ↔ 0 < k ∧ (c.tupleSize < 0 ∨ (d.length : Int) < (k : Int) - 1 + c.tupleSize) := by
  induction k generalizing r with
  | zero => exact ⟨fun h => absurd h not_panics_ok, fun h => absurd h.1 (by omega)⟩
  | succ k ih =>
    rw [dcTuples, panics_bind, goSlice_panics]
    simp only [ih]
    constructor
    · rintro (h | ⟨a, _, h1, h2⟩)
      · refine ⟨by omega, ?_⟩
        push_cast
        omega
      · refine ⟨by omega, ?_⟩
        push_cast
        omega
    · rintro ⟨_, h⟩
      left
      push_cast at h
      omega

theorem dcFallback_panics {hash : Str → Str} {c : DCCfg} {n : Str} (h0 : c.maxSegment ≠ 0) :
    Panics (dcFallback hash c n) ↔ (c.maxSegment < 0 ∧ 0 < (hash n).length ∧ ((hash n).length : Int) < -c.maxSegment ∨
        0 < c.tuples ∧ (c.tupleSize < 0 ∨ ((hash n).length : Int) < c.tuples - 1 + c.tupleSize)) := by
  unfold dcFallback
  rw [panics_bind, digestPieces_panics h0]
  have hk : ∀ r, Panics (dcTuples c (hash n) c.tuples.toNat r) ↔ 0 < c.tuples ∧ (c.tupleSize < 0 ∨ ((hash n).length : Int) < c.tuples - 1 + c.tupleSize) := by
    intro r
    rw [dcTuples_panics]
    omega
  have hrest : ∀ r, ¬ Panics (let result := trimLeft (pathClean (pathJoin [c.folder, r])) "/".toList
      if (byteLen result : Int) > c.maxPathname then .error (.error "result too long") else .ok result : Res Str) := by
    intro r
    simp only
    split
    · rintro ⟨m, h⟩; cases h
    · exact not_panics_ok
  simp only [panics_bind, hk]
  constructor
  · rintro (h | ⟨a, _, h | ⟨x, _, h⟩⟩)
    · exact Or.inl h
    · exact Or.inr h
    · exact absurd h (hrest x)
  · rintro (h | h)
    · exact Or.inl h
    · by_cases hp : Panics (digestPieces c.maxSegment (hash n))
      · exact Or.inl ((digestPieces_panics h0).1 hp)
      · have : ∃ a, digestPieces c.maxSegment (hash n) = .ok a := by
          have hne := hp
          unfold digestPieces at hne ⊢
          simp only at hne ⊢
          rw [panics_bind, slices_panics] at hne
          push Not at hne
          obtain ⟨ts, hts⟩ := (show ∀ (l : List Nat) (lo hi : Nat → Int), (∀ i ∈ l, 0 ≤ lo i ∧ lo i ≤ hi i ∧ hi i ≤ (hash n).length) →
              ∃ ts, l.mapM (fun i => goSlice (hash n) (lo i) (hi i)) = .ok ts from by
            intro l lo hi h
            induction l with
            | nil => exact ⟨[], rfl⟩
            | cons a l ih =>
              obtain ⟨ts, hts⟩ := ih (fun i hi => h i (by simp [hi]))
              rw [List.mapM_cons]
              refine ⟨((hash n).drop (lo a).toNat).take (hi a - lo a).toNat :: ts, ?_⟩
              unfold goSlice at hts ⊢
              rw [if_pos (h a (by simp)), res_bind_ok, hts]
              rfl) _ _ _ hne.1
          rw [hts]
          exact ⟨_, rfl⟩
        obtain ⟨a, ha⟩ := this
        exact Or.inr ⟨a, ha, Or.inl h⟩

theorem dcBuild_unhashed {hash : Str → Str} {c : DCCfg} {f : Str} (h : dcHashed c f = none) : ¬ Panics (dcBuild hash c f) := by
  unfold dcHashed at h
  unfold dcBuild
  cases hd : dcSegs c (splitOn '/' f) with
  | none => rw [hd] at h; cases h
  | some segs =>
    rw [hd] at h
    simp only at h ⊢
    split at h
    · cases h
    · rename_i hlt; rw [if_neg hlt]; exact not_panics_ok

/-! ## Property -/

theorem loaded_directClean {hashes : Str → Option (Str → Str)} {f : CfgFile} {alg : Str} {c : DCCfg}
    (h : loadLayout hashes f = .ok (.directClean alg c)) : c.maxSegment ≠ 0 ∧ ∃ hash, hashes alg = some hash := by
  have hread : ∀ f, (readDC f).maxSegment ≠ 0 := by
    intro f
    obtain ⟨c', hc'⟩ := readDC_new f
    rw [hc']
    unfold newDC
    simp only
    split <;> omega
  have hneed : ∀ {a : Str} {l l' : Layout}, needHash hashes a l = .ok l' → l = l' ∧ ∃ hash, hashes a = some hash := by
    intro a l l' hn
    unfold needHash at hn
    cases ha : hashes a with
    | none => rw [ha] at hn; cases hn
    | some x => rw [ha] at hn; cases hn; exact ⟨rfl, x, rfl⟩
  unfold loadLayout at h
  repeat' split at h
  all_goals first
    | (cases h)
    | (obtain ⟨h1, h2⟩ := hneed h; cases h1; done)
    | (obtain ⟨h1, h2⟩ := hneed h; cases h1; exact ⟨hread f, h2⟩)

/-- **C185 (exact).** A storage layout crashes exactly with the configurations, and on the ids, of `LayoutCrashes`. -/
theorem C185_crash_iff {hashes : Str → Option (Str → Str)} {f : CfgFile} {l : Layout} (h : loadLayout hashes f = .ok l) (id : Str) :
    Panics (layoutPath hashes l id) ↔ LayoutCrashes hashes l id := by
  cases l with
  | flatDirect => exact ⟨fun h => absurd h not_panics_ok, False.elim⟩
  | pathDirect => exact ⟨fun h => absurd h not_panics_ok, False.elim⟩
  | flatOmit d => exact ⟨fun h => absurd h not_panics_ok, False.elim⟩
  | hashId alg c => exact layout0003_panics
  | hashed alg c => exact layout0004_panics
  | tupleOmit c => exact layout0007_panics
  | pairtree alg n => exact layoutPairtree_panics
  | directClean alg c =>
    obtain ⟨h0, hash, hh⟩ := loaded_directClean h
    show Panics (dcBuild ((hashes alg).getD (fun _ => [])) c id) ↔ _
    rw [hh]
    simp only [LayoutCrashes, Option.getD_some, hh, Option.some.injEq]
    cases hd : dcHashed c id with
    | none =>
      constructor
      · intro hp; exact absurd hp (dcBuild_unhashed hd)
      · rintro ⟨n, _, hn, _⟩; cases hn
    | some n =>
      rw [dcBuild_hashed hd, dcFallback_panics h0]
      constructor
      · intro hp; exact ⟨n, hash, rfl, rfl, hp⟩
      · rintro ⟨n', hash', hn, rfl, hp⟩; cases hn; exact hp

/-- numbers as the documentation of the layouts has them -/
def SensibleCfg (hashes : Str → Option (Str → Str)) : Layout → Prop
  | .hashId _ c => 0 ≤ c.tupleSize ∧ 0 ≤ c.numberOfTuples
  | .hashed _ c => 0 ≤ c.tupleSize ∧ 0 ≤ c.numberOfTuples
  | .tupleOmit c => 0 < c.tupleSize ∧ 0 ≤ c.numberOfTuples ∧ (c.zeroPadding = "left".toList ∨ c.zeroPadding = "right".toList)
  | .pairtree _ n => 0 < n
  | .directClean alg c => 0 < c.maxSegment ∧ 0 ≤ c.tupleSize ∧
      ∀ hash n, hashes alg = some hash → c.tuples - 1 + c.tupleSize ≤ ((hash n).length : Int)
  | _ => True

/-- **C185**, for sensible numbers in the configuration: every id gets a path or an error.  Missing: the other configurations,
which the constructors accept; `C185_crash_iff` says which of them crash. -/
theorem C185_no_crash_partial {hashes : Str → Option (Str → Str)} {f : CfgFile} {l : Layout} (h : loadLayout hashes f = .ok l)
    (hs : SensibleCfg hashes l) (id : Str) : ¬ Panics (layoutPath hashes l id) := by
  rw [C185_crash_iff h]
  cases l with
  | flatDirect => exact not_false
  | pathDirect => exact not_false
  | flatOmit d => exact not_false
  | hashId alg c => rintro ⟨_, h2⟩; exact absurd hs.1 (by omega)
  | hashed alg c =>
    rintro (⟨_, h2⟩ | ⟨_, h2, _⟩)
    · exact absurd hs.1 (by omega)
    · exact absurd hs.2 (by omega)
  | tupleOmit c =>
    obtain ⟨h1, h2, h3⟩ := hs
    rintro (h | ⟨_, h | ⟨h4, h5, _⟩⟩)
    · omega
    · omega
    · exact h3.elim h4 h5
  | pairtree alg n => intro h; simp only [LayoutCrashes] at h; simp only [SensibleCfg] at hs; omega
  | directClean alg c =>
    obtain ⟨h1, h2, h3⟩ := hs
    rintro ⟨n, hash, _, hh, ⟨h4, _⟩ | ⟨_, h4 | h4⟩⟩
    · omega
    · omega
    · have := h3 hash n hh; omega

/-- **C185.** The hashed layouts report an error exactly if the tuples are longer than the digest. -/
theorem C185_short {hashes : Str → Option (Str → Str)} {alg : Str} {hash : Str → Str} (hh : hashes alg = some hash) (c : TupleCfg) (id : Str) :
    ((∃ m, layoutPath hashes (.hashId alg c) id = .error (.error m)) ↔ ((hash id).length : Int) < c.tupleSize * c.numberOfTuples) ∧
    ((∃ m, layoutPath hashes (.hashed alg c) id = .error (.error m)) ↔ ((hash id).length : Int) < c.tupleSize * c.numberOfTuples) := by
  have hslice : ∀ {s : Str} {a b : Int} {m : String}, goSlice s a b ≠ .error (.error m) := by
    intro s a b m
    unfold goSlice
    split <;> exact nofun
  have hmap : ∀ {d : Str} {l : List Nat} {lo hi : Nat → Int} {m : String}, l.mapM (fun i => goSlice d (lo i) (hi i)) ≠ .error (.error m) := by
    intro d l lo hi m
    induction l with
    | nil => exact nofun
    | cons a l ih =>
      rw [List.mapM_cons]
      cases h1 : goSlice d (lo a) (hi a) with
      | error e => intro h; have h : (Except.error e : Res (List Str)) = .error (.error m) := h; cases h; exact hslice h1
      | ok x =>
        rw [res_bind_ok]
        cases h2 : l.mapM (fun i => goSlice d (lo i) (hi i)) with
        | error e => intro h; have h : (Except.error e : Res (List Str)) = .error (.error m) := h; cases h; exact ih h2
        | ok ys => exact nofun
  have htup : ∀ {d : Str} {m : String}, tuples d c ≠ .error (.error m) := fun {d m} => hmap
  constructor
  · show (∃ m, layout0003 ((hashes alg).getD (fun _ => [])) c id = .error (.error m)) ↔ _
    rw [hh, Option.getD_some]
    unfold layout0003
    split
    · rename_i h; exact ⟨fun _ => h, fun _ => ⟨_, rfl⟩⟩
    · rename_i h
      refine ⟨?_, fun hc => absurd hc h⟩
      rintro ⟨m, hm⟩
      cases ht : tuples (hash id) c with
      | error e => rw [ht] at hm; have hm : (Except.error e : Res Str) = .error (.error m) := hm; cases hm; exact absurd ht htup
      | ok ts => rw [ht, res_bind_ok] at hm; cases hm
  · show (∃ m, layout0004 ((hashes alg).getD (fun _ => [])) c id = .error (.error m)) ↔ _
    rw [hh, Option.getD_some]
    unfold layout0004
    split
    · rename_i h; exact ⟨fun _ => h, fun _ => ⟨_, rfl⟩⟩
    · rename_i h
      refine ⟨?_, fun hc => absurd hc h⟩
      rintro ⟨m, hm⟩
      cases ht : tuples (hash id) c with
      | error e => rw [ht] at hm; have hm : (Except.error e : Res Str) = .error (.error m) := hm; cases hm; exact absurd ht htup
      | ok ts =>
        rw [ht, res_bind_ok] at hm
        split at hm
        · cases hg : goSlice (hash id) (c.numberOfTuples * c.tupleSize) (hash id).length with
          | error e => rw [hg] at hm; have hm : (Except.error e : Res Str) = .error (.error m) := hm; cases hm; exact absurd hg hslice
          | ok x => rw [hg, res_bind_ok] at hm; cases hm
        · rw [res_bind_ok] at hm; cases hm

/-- **C185, in full**: a layout that was loaded gives every id a path or an error. -/
def C185_full : Prop := ∀ (hashes : Str → Option (Str → Str)) (f : CfgFile) (l : Layout) (id : Str), loadLayout hashes f = .ok l →
  ¬ Panics (layoutPath hashes l id)

/-- C185 is violated: the configuration file the program itself writes for 0007 (only the name, see C54) crashes on every id. -/
theorem C185_full_fails (hashes : Str → Option (Str → Str)) (c : OmitCfg) : ∃ l, loadLayout hashes (writeConfig (.tupleOmit c)) = .ok l ∧
    ∀ id, Panics (layoutPath hashes l id) := by
  refine ⟨.tupleOmit ⟨[], 0, 0, [], false⟩, ?_, fun id => (layout0007_panics (c := ⟨[], 0, 0, [], false⟩) (id := id)).2 (Or.inl rfl)⟩
  rfl

/-- digests of four characters -/
def lcHashes : Str → Option (Str → Str) := fun a => if a = "md5".toList then some (fun _ => "0a1b".toList) else none

/-- sensible and not: three tuples of two characters are an error, a negative size crashes -/
example : loadLayout lcHashes ⟨nmHashId, [(kTupleSize, 2), (kNumber, 2)], [(kAlg, "md5".toList)], []⟩ = .ok (.hashId "md5".toList ⟨2, 2, false⟩) ∧
    SensibleCfg lcHashes (.hashId "md5".toList ⟨2, 2, false⟩) ∧
    layoutPath lcHashes (.hashId "md5".toList ⟨2, 2, false⟩) "x y".toList = .ok "0a/1b/x%20y".toList ∧
    layoutPath lcHashes (.hashId "md5".toList ⟨2, 3, false⟩) "x y".toList = .error (.error "digest too short") ∧
    Panics (layoutPath lcHashes (.hashId "md5".toList ⟨-2, 3, false⟩) "x y".toList) := by
  refine ⟨by decide, ⟨by decide, by decide⟩, by decide, by decide, layout0003_panics.2 (by decide)⟩

example : ¬ C185_full := fun h => by
  obtain ⟨l, h1, h2⟩ := C185_full_fails lcHashes ⟨":".toList, 3, 2, "left".toList, false⟩
  exact h _ _ _ [] h1 (h2 [])

end Gocfl
