import Verif.Model.DirectClean
import Mathlib.Data.List.Basic

/-!
# C52, C53: the direct-clean layout
-/

namespace Gocfl

/-! ## The code words -/

theorem fmtU_eq {n : Nat} (h : n < 65536) :
    fmtU n = [(n / 4096).digitChar.toUpper, (n / 256 % 16).digitChar.toUpper, (n / 16 % 16).digitChar.toUpper,
      (n % 16).digitChar.toUpper] := by
  have z : '0' = (0 : Nat).digitChar.toUpper := by decide
  have d1 : n / 16 / 16 = n / 256 := by omega
  have d2 : n / 256 / 16 = n / 4096 := by omega
  unfold fmtU hexNat
  by_cases h1 : n < 16
  · rw [Nat.toDigits_of_lt_base h1]
    have e1 : n / 4096 = 0 := by omega
    have e2 : n / 256 % 16 = 0 := by omega
    have e3 : n / 16 % 16 = 0 := by omega
    have e4 : n % 16 = n := by omega
    rw [e1, e2, e3, e4, ← z]; rfl
  rw [Nat.toDigits_of_base_le (by omega) (by omega)]
  by_cases h2 : n / 16 < 16
  · rw [Nat.toDigits_of_lt_base h2]
    have e1 : n / 4096 = 0 := by omega
    have e2 : n / 256 % 16 = 0 := by omega
    have e3 : n / 16 % 16 = n / 16 := by omega
    rw [e1, e2, e3, ← z]; rfl
  rw [Nat.toDigits_of_base_le (by omega) (by omega), d1]
  by_cases h3 : n / 256 < 16
  · rw [Nat.toDigits_of_lt_base h3]
    have e1 : n / 4096 = 0 := by omega
    have e2 : n / 256 % 16 = n / 256 := by omega
    rw [e1, e2, ← z]; rfl
  rw [Nat.toDigits_of_base_le (by omega) (by omega), d2, Nat.toDigits_of_lt_base (by omega)]
  rfl

theorem upperDigit_alnum {n : Nat} (h : n < 16) : alnum n.digitChar.toUpper = true := by
  have : ∀ m : Fin 16, alnum (m.val).digitChar.toUpper = true := by decide
  exact this ⟨n, h⟩

theorem upperDigit_inj {n m : Nat} (hn : n < 16) (hm : m < 16) (h : n.digitChar.toUpper = m.digitChar.toUpper) : n = m := by
  have : ∀ a b : Fin 16, (a.val).digitChar.toUpper = (b.val).digitChar.toUpper → a = b := by decide
  have := this ⟨n, hn⟩ ⟨m, hm⟩ h
  simpa using this

theorem fmtU_inj {n m : Nat} (hn : n < 65536) (hm : m < 65536) {r s : Str} (h : fmtU n ++ r = fmtU m ++ s) :
    n = m ∧ r = s := by
  rw [fmtU_eq hn, fmtU_eq hm] at h
  simp only [List.cons_append, List.nil_append, List.cons.injEq] at h
  obtain ⟨h1, h2, h3, h4, h5⟩ := h
  have h1 := upperDigit_inj (by omega) (by omega) h1
  have h2 := upperDigit_inj (by omega) (by omega) h2
  have h3 := upperDigit_inj (by omega) (by omega) h3
  have h4 := upperDigit_inj (by omega) (by omega) h4
  exact ⟨by omega, h5⟩

theorem fmtU_startsU4 {n : Nat} (hn : n < 65536) (r : Str) : startsU4 ('u' :: (fmtU n ++ r)) = true := by
  rw [fmtU_eq hn]
  simp only [List.cons_append, List.nil_append, startsU4, decide_true, Bool.true_and, Bool.and_eq_true]
  exact ⟨⟨⟨upperDigit_alnum (by omega), upperDigit_alnum (by omega)⟩, upperDigit_alnum (by omega)⟩,
    upperDigit_alnum (by omega)⟩

theorem dcWhite_small {c : Char} (h : dcWhite c = true) : c.toNat < 65536 := by
  unfold dcWhite at h
  simp only [Bool.or_eq_true, decide_eq_true_eq] at h
  omega

theorem dcDanger_small {c : Char} (h : dcDanger c = true) : c.toNat < 128 := by
  unfold dcDanger at h
  simp only [Bool.or_eq_true, decide_eq_true_eq, List.contains_iff_mem] at h
  have : ∀ x ∈ dcPunct, x.toNat < 128 := by decide
  rcases h with (h | h) | h
  · omega
  · omega
  · exact this c h

theorem dcAll_small {c : Char} (h : dcAll c = true) : c.toNat < 65536 := by
  unfold dcAll at h
  rcases Bool.or_eq_true _ _ |>.mp h with h | h
  · have := dcDanger_small h; omega
  · exact dcWhite_small h

theorem alnum_not_all {c : Char} (h : alnum c = true) : dcAll c = false ∧ c ≠ '=' := by
  have hn : (97 ≤ c.toNat ∧ c.toNat ≤ 122) ∨ (65 ≤ c.toNat ∧ c.toNat ≤ 90) ∨ (48 ≤ c.toNat ∧ c.toNat ≤ 57) := by
    unfold alnum at h
    simp only [Bool.or_eq_true, decide_eq_true_eq] at h
    omega
  refine ⟨?_, by rintro rfl; revert h; decide⟩
  cases hc : dcAll c with
  | false => rfl
  | true =>
    exfalso
    unfold dcAll at hc
    rcases Bool.or_eq_true _ _ |>.mp hc with hc | hc
    · unfold dcDanger at hc
      simp only [Bool.or_eq_true, decide_eq_true_eq, List.contains_iff_mem] at hc
      have : ∀ x ∈ dcPunct, alnum x = false := by decide
      rcases hc with (hc | hc) | hc
      · omega
      · omega
      · rw [this c hc] at h; simp at h
    · unfold dcWhite at hc
      simp only [Bool.or_eq_true, decide_eq_true_eq] at hc
      omega

/-! ## The encoder as one pass -/

/-- whether a character is written as code -/
def coded (c : Char) (r : Str) : Bool := (decide (c = '=') && startsU4 r) || dcAll c

/-- the two replacements of a segment in one pass -/
def utfEnc : Str → Str
  | [] => []
  | c :: r => (if coded c r then encodeUTF c else [c]) ++ utfEnc r

theorem eq_not_all : dcAll '=' = false := by decide

theorem utfEnc_eq (s : Str) : (eqEncode s).flatMap (fun c => if dcAll c then encodeUTF c else [c]) = utfEnc s := by
  induction s with
  | nil => rfl
  | cons c r ih =>
    rw [eqEncode, utfEnc]
    by_cases h : c = '=' ∧ startsU4 r = true
    · rw [if_pos h, List.flatMap_append, ih]
      have hc : coded c r = true := by unfold coded; simp [h.1, h.2]
      rw [hc, h.1]
      congr 1
    · rw [if_neg h, List.flatMap_cons, ih]
      have hc : coded c r = dcAll c := by
        unfold coded
        by_cases h1 : c = '='
        · have h2 : startsU4 r = false := by
            cases hs : startsU4 r with
            | false => rfl
            | true => exact absurd ⟨h1, hs⟩ h
          simp [h1, h2]
        · simp [h1]
      rw [hc]

theorem coded_small {c : Char} {r : Str} (h : coded c r = true) : c.toNat < 65536 := by
  unfold coded at h
  rcases Bool.or_eq_true _ _ |>.mp h with h | h
  · have : c = '=' := by
      rcases Bool.and_eq_true _ _ |>.mp h with ⟨h, _⟩
      simpa using h
    subst this; decide
  · exact dcAll_small h

theorem alnum_not_coded {c : Char} (h : alnum c = true) (r : Str) : coded c r = false := by
  obtain ⟨h1, h2⟩ := alnum_not_all h
  unfold coded; simp [h1, h2]

theorem utfEnc_alnum_head {a : Char} {r t : Str} (h : utfEnc r = a :: t) (ha : alnum a = true) :
    ∃ r', r = a :: r' ∧ t = utfEnc r' := by
  cases r with
  | nil => simp [utfEnc] at h
  | cons c r =>
    rw [utfEnc] at h
    split at h
    · unfold encodeUTF at h
      simp only [List.cons_append, List.cons.injEq] at h
      rw [← h.1] at ha
      exact absurd ha (by decide)
    · simp only [List.cons_append, List.nil_append, List.cons.injEq] at h
      exact ⟨r, by rw [h.1], h.2.symm⟩

theorem utfEnc_alnum {a : Char} (ha : alnum a = true) (r : Str) : utfEnc (a :: r) = a :: utfEnc r := by
  rw [utfEnc, alnum_not_coded ha r]; rfl

theorem startsU4_cases {s : Str} (h : startsU4 s = true) :
    ∃ a b c d r, s = 'u' :: a :: b :: c :: d :: r ∧ alnum a = true ∧ alnum b = true ∧ alnum c = true ∧
      alnum d = true := by
  match s, h with
  | u :: a :: b :: c :: d :: r, h =>
    simp only [startsU4, Bool.and_eq_true, decide_eq_true_eq] at h
    exact ⟨a, b, c, d, r, by rw [h.1.1.1.1], h.1.1.1.2, h.1.1.2, h.1.2, h.2⟩

theorem startsU4_intro {a b c d : Char} (r : Str) (ha : alnum a = true) (hb : alnum b = true) (hc : alnum c = true)
    (hd : alnum d = true) : startsU4 ('u' :: a :: b :: c :: d :: r) = true := by
  simp [startsU4, ha, hb, hc, hd]

theorem alnum_u : alnum 'u' = true := by decide

theorem startsU4_enc (r : Str) : startsU4 (utfEnc r) = startsU4 r := by
  rw [Bool.eq_iff_iff]
  constructor
  · intro h
    obtain ⟨a, b, c, d, t, he, ha, hb, hc, hd⟩ := startsU4_cases h
    obtain ⟨r1, rfl, e1⟩ := utfEnc_alnum_head he alnum_u
    obtain ⟨r2, rfl, e2⟩ := utfEnc_alnum_head e1.symm ha
    obtain ⟨r3, rfl, e3⟩ := utfEnc_alnum_head e2.symm hb
    obtain ⟨r4, rfl, e4⟩ := utfEnc_alnum_head e3.symm hc
    obtain ⟨r5, rfl, _⟩ := utfEnc_alnum_head e4.symm hd
    exact startsU4_intro _ ha hb hc hd
  · intro h
    obtain ⟨a, b, c, d, t, rfl, ha, hb, hc, hd⟩ := startsU4_cases h
    rw [utfEnc_alnum alnum_u, utfEnc_alnum ha, utfEnc_alnum hb, utfEnc_alnum hc, utfEnc_alnum hd]
    exact startsU4_intro _ ha hb hc hd

theorem encodeUTF_inj {c d : Char} (hc : c.toNat < 65536) (hd : d.toNat < 65536) {r s : Str}
    (h : encodeUTF c ++ r = encodeUTF d ++ s) : c = d ∧ r = s := by
  unfold encodeUTF at h
  simp only [List.cons_append, List.cons.injEq, true_and] at h
  obtain ⟨h1, h2⟩ := fmtU_inj hc hd h
  exact ⟨char_toNat_inj h1, h2⟩

/-- a code word is not the beginning of anything that starts with an uncoded character -/
theorem code_vs_plain {c : Char} (hc : c.toNat < 65536) {t : Str} {d : Char} {s : Str} (hd : coded d s = false)
    (h : encodeUTF c ++ t = d :: utfEnc s) : False := by
  unfold encodeUTF at h
  simp only [List.cons_append, List.cons.injEq] at h
  have h1 : startsU4 (utfEnc s) = true := by rw [← h.2]; exact fmtU_startsU4 hc t
  rw [startsU4_enc] at h1
  unfold coded at hd
  rw [← h.1, h1] at hd
  simp at hd

theorem utfEnc_inj : ∀ r s : Str, utfEnc r = utfEnc s → r = s := by
  intro r
  induction r with
  | nil =>
    intro s h
    cases s with
    | nil => rfl
    | cons d s =>
      rw [utfEnc, utfEnc] at h
      split at h <;> simp [encodeUTF] at h
  | cons c r ih =>
    intro s h
    cases s with
    | nil =>
      rw [utfEnc, utfEnc] at h
      split at h <;> simp [encodeUTF] at h
    | cons d s =>
      rw [utfEnc, utfEnc] at h
      cases hc : coded c r <;> cases hd : coded d s <;> simp only [hc, hd, if_true, Bool.false_eq_true, if_false] at h
      · simp only [List.cons_append, List.nil_append, List.cons.injEq] at h
        rw [h.1, ih s h.2]
      · exact (code_vs_plain (coded_small hd) hc h.symm).elim
      · exact (code_vs_plain (coded_small hc) hd h).elim
      · obtain ⟨h1, h2⟩ := encodeUTF_inj (coded_small hc) (coded_small hd) h
        rw [h1, ih s h2]

theorem utfEnc_nil_iff {s : Str} : utfEnc s = [] ↔ s = [] := by
  constructor
  · intro h; exact utfEnc_inj s [] (by rw [h]; rfl)
  · rintro rfl; rfl

/-- the first character of an encoded segment -/
def guarded (m : Str) : Bool :=
  match m with
  | [] => false
  | c :: _ => decide (c = '~') || allPeriods m

theorem dcSegUTF_eq (n : Str) :
    dcSegUTF n = match utfEnc n with
      | [] => []
      | c :: r => if guarded (c :: r) then encodeUTF c ++ r else c :: r := by
  unfold dcSegUTF
  rw [utfEnc_eq]
  cases h : utfEnc n with
  | nil => rfl
  | cons c r =>
    simp only [guarded, Bool.or_eq_true, decide_eq_true_eq]

theorem guarded_head {c : Char} {r : Str} (h : guarded (c :: r) = true) : c = '~' ∨ c = '.' := by
  unfold guarded allPeriods at h
  simp only [List.isEmpty_cons, Bool.not_false, List.all_cons, Bool.true_and, Bool.or_eq_true, decide_eq_true_eq,
    Bool.and_eq_true] at h
  rcases h with h | h
  · exact .inl h
  · exact .inr h.1

theorem guarded_small {c : Char} {r : Str} (h : guarded (c :: r) = true) : c.toNat < 65536 := by
  rcases guarded_head h with rfl | rfl <;> decide

/-- a coded first character is never a tilde or a full stop -/
theorem guard_vs_plain {c : Char} {t n : Str} (h : guarded (c :: t) = true) (he : encodeUTF c ++ t = utfEnc n) :
    False := by
  cases n with
  | nil => simp [utfEnc, encodeUTF] at he
  | cons d s =>
    rw [utfEnc] at he
    cases hd : coded d s <;> simp only [hd, if_true, Bool.false_eq_true, if_false] at he
    · exact code_vs_plain (guarded_small h) hd (by simpa using he)
    · obtain ⟨rfl, _⟩ := encodeUTF_inj (guarded_small h) (coded_small hd) he
      rcases guarded_head h with rfl | rfl
      · revert hd
        have : dcAll '~' = false := by decide
        unfold coded; simp [this]
      · revert hd
        have : dcAll '.' = false := by decide
        unfold coded; simp [this]

theorem dcSegUTF_inj {n m : Str} (h : dcSegUTF n = dcSegUTF m) : n = m := by
  rw [dcSegUTF_eq, dcSegUTF_eq] at h
  cases hn : utfEnc n with
  | nil =>
    cases hm : utfEnc m with
    | nil => exact utfEnc_inj _ _ (by rw [hn, hm])
    | cons c r =>
      rw [hn, hm] at h
      simp only at h
      split at h <;> simp [encodeUTF] at h
  | cons c r =>
    cases hm : utfEnc m with
    | nil =>
      rw [hn, hm] at h
      simp only at h
      split at h <;> simp [encodeUTF] at h
    | cons d s =>
      rw [hn, hm] at h
      simp only at h
      apply utfEnc_inj
      rw [hn, hm]
      cases h1 : guarded (c :: r) <;> cases h2 : guarded (d :: s) <;>
        simp only [h1, h2, if_true, Bool.false_eq_true, if_false] at h
      · exact h
      · rw [← hn] at h; exact (guard_vs_plain h2 h.symm).elim
      · rw [← hm] at h; exact (guard_vs_plain h1 h).elim
      · obtain ⟨rfl, rfl⟩ := encodeUTF_inj (guarded_small h1) (guarded_small h2) h
        rfl

theorem dcSegUTF_ne_nil {n : Str} (h : n ≠ []) : dcSegUTF n ≠ [] := by
  rw [dcSegUTF_eq]
  cases hn : utfEnc n with
  | nil => exact absurd (utfEnc_nil_iff.1 hn) h
  | cons c r =>
    simp only
    split <;> simp [encodeUTF]

theorem alnum_not_slash {c : Char} (h : alnum c = true) : c ≠ '/' := by rintro rfl; revert h; decide

theorem encodeUTF_no_slash {c : Char} (hc : c.toNat < 65536) : '/' ∉ encodeUTF c := by
  unfold encodeUTF
  rw [fmtU_eq hc]
  intro h
  simp only [List.mem_cons, List.not_mem_nil, or_false] at h
  rcases h with h | h | h | h | h | h
  · exact absurd h (by decide)
  · exact absurd h (by decide)
  all_goals exact alnum_not_slash (upperDigit_alnum (by omega)) h.symm

theorem utfEnc_no_slash {n : Str} (h : '/' ∉ n) : '/' ∉ utfEnc n := by
  induction n with
  | nil => simp [utfEnc]
  | cons c r ih =>
    rw [utfEnc, List.mem_append, not_or]
    simp only [List.mem_cons, not_or] at h
    refine ⟨?_, ih h.2⟩
    split
    · rename_i hc; exact encodeUTF_no_slash (coded_small hc)
    · simpa using h.1

/-- every encoded segment is an ordinary path component -/
theorem dcSegUTF_valid {n : Str} (hne : n ≠ []) (hs : '/' ∉ n) : ValidComp (dcSegUTF n) := by
  have h1 := dcSegUTF_ne_nil hne
  have hsl : '/' ∉ dcSegUTF n := by
    rw [dcSegUTF_eq]
    have := utfEnc_no_slash hs
    cases hn : utfEnc n with
    | nil => simp
    | cons c r =>
      rw [hn] at this
      simp only
      split
      · rename_i hg
        rw [List.mem_append, not_or]
        exact ⟨encodeUTF_no_slash (guarded_small hg), fun h => this (by simp [h])⟩
      · exact this
  have hper : ∀ x, allPeriods x = true → dcSegUTF n ≠ x := by
    intro x hx he
    rw [dcSegUTF_eq] at he
    cases hn : utfEnc n with
    | nil => rw [hn] at he; simp only at he; subst he; simp [allPeriods] at hx
    | cons c r =>
      rw [hn] at he
      simp only at he
      split at he
      · subst he
        revert hx
        simp [allPeriods, encodeUTF]
      · rename_i hg
        subst he
        apply hg
        unfold guarded; simp [hx]
  exact ⟨h1, hper _ (by decide), hper _ (by decide), hsl⟩

/-! ## Whole paths -/

/-- the non-empty segments of a path -/
def segsOf (p : Str) : List Str := (splitOn '/' p).filter (fun n => !n.isEmpty)

theorem segsOf_mem {p n : Str} (h : n ∈ segsOf p) : n ≠ [] ∧ '/' ∉ n := by
  unfold segsOf at h
  obtain ⟨h1, h2⟩ := List.mem_filter.1 h
  refine ⟨?_, splitOn_noSep_mem h1⟩
  rintro rfl; simp at h2

/-- the segments when none is too long -/
def cleanedSegs (c : DCCfg) (ns : List Str) : List Str :=
  ((ns.filter (fun n => !n.isEmpty)).map (dcSeg c)).filter
    (fun m => !m.isEmpty)

theorem dcSegs_some {c : DCCfg} {ns r : List Str} (h : dcSegs c ns = some r) :
    r = cleanedSegs c ns ∧ ∀ m ∈ r, (byteLen m : Int) ≤ c.maxSegment := by
  induction ns generalizing r with
  | nil => cases h; exact ⟨rfl, by simp⟩
  | cons n ns ih =>
    rw [dcSegs] at h
    split at h
    · rename_i hn
      obtain ⟨h1, h2⟩ := ih h
      refine ⟨?_, h2⟩
      rw [h1]; unfold cleanedSegs; simp [hn]
    · rename_i hn
      split at h
      · simp at h
      · rename_i hlen
        cases hd : dcSegs c ns with
        | none => rw [hd] at h; simp at h
        | some r' =>
          rw [hd] at h
          simp only [Option.map_some, Option.some.injEq] at h
          obtain ⟨h1, h2⟩ := ih hd
          have hne : n.isEmpty = false := by cases n with | nil => exact absurd rfl hn | cons => rfl
          subst h
          unfold cleanedSegs
          rw [List.filter_cons, hne]
          simp only [Bool.not_false, if_true, List.map_cons]
          rw [List.filter_cons]
          split
          · rename_i hm
            rw [hm]
            exact ⟨h1, h2⟩
          · rename_i hm
            have hme : (dcSeg c n).isEmpty = false := by
              cases hx : dcSeg c n with
              | nil => exact absurd hx hm
              | cons => rfl
            rw [hme]
            simp only [Bool.not_false, if_true]
            refine ⟨by rw [h1]; rfl, ?_⟩
            intro m hmm
            rcases List.mem_cons.1 hmm with rfl | hmm
            · omega
            · exact h2 m hmm

/-- no fallback is taken: neither a cleaned segment nor the whole result is too long -/
def FallbackFree (c : DCCfg) (p : Str) : Prop :=
  ∃ segs, dcSegs c (splitOn '/' p) = some segs ∧ (byteLen (joinWith '/' segs) : Int) ≤ c.maxPathname

theorem dcBuild_free {hash : Str → Str} {c : DCCfg} {p : Str} (h : FallbackFree c p) :
    dcBuild hash c p = .ok (joinWith '/' (cleanedSegs c (splitOn '/' p))) := by
  obtain ⟨segs, h1, h2⟩ := h
  unfold dcBuild
  rw [h1]
  simp only
  rw [if_neg (by omega), (dcSegs_some h1).1]

theorem cleanedSegs_utf {c : DCCfg} (hu : c.utf = true) (p : Str) :
    cleanedSegs c (splitOn '/' p) = (segsOf p).map dcSegUTF := by
  have hd : dcSeg c = dcSegUTF := by funext n; unfold dcSeg; rw [if_pos hu]
  unfold cleanedSegs
  rw [hd]
  apply List.filter_eq_self.2
  intro m hm
  obtain ⟨n, hn, rfl⟩ := List.mem_map.1 hm
  have := dcSegUTF_ne_nil (segsOf_mem hn).1
  cases h : dcSegUTF n with
  | nil => exact absurd h this
  | cons => rfl

/-- C52 in full: with UTF encoding, distinct paths have distinct results as long as no fallback is taken -/
def C52_full : Prop :=
  ∀ (hash : Str → Str) (c : DCCfg) (p q r : Str), c.utf = true → FallbackFree c p → FallbackFree c q →
    dcBuild hash c p = .ok r → dcBuild hash c q = .ok r → p = q

/-- C52: with UTF encoding, two paths have the same result only if they have the same non-empty segments.  Missing:
empty segments, which are dropped; invalid UTF-8, which is replaced before. -/
theorem C52_injective_partial {hash : Str → Str} {c : DCCfg} {p q : Str} (hu : c.utf = true) (hp : FallbackFree c p)
    (hq : FallbackFree c q) (h : dcBuild hash c p = dcBuild hash c q) : segsOf p = segsOf q := by
  rw [dcBuild_free hp, dcBuild_free hq, cleanedSegs_utf hu, cleanedSegs_utf hu] at h
  have h := Except.ok.inj h
  have val : ∀ x : Str, ∀ m ∈ (segsOf x).map dcSegUTF, ValidComp m := by
    intro x m hm
    obtain ⟨n, hn, rfl⟩ := List.mem_map.1 hm
    exact dcSegUTF_valid (segsOf_mem hn).1 (segsOf_mem hn).2
  have he : (segsOf p).map dcSegUTF = (segsOf q).map dcSegUTF := by
    by_cases h1 : (segsOf p).map dcSegUTF = [] <;> by_cases h2 : (segsOf q).map dcSegUTF = []
    · rw [h1, h2]
    · rw [h1] at h
      exact absurd h.symm (joinWith_ne_nil h2 (fun m hm => (val q m hm).1))
    · rw [h2] at h
      exact absurd h (joinWith_ne_nil h1 (fun m hm => (val p m hm).1))
    · exact joinWith_inj h1 h2 (fun m hm => (val p m hm).2.2.2) (fun m hm => (val q m hm).2.2.2) h
  exact List.map_injective_iff.2 (fun _ _ => dcSegUTF_inj) he

theorem segsOf_clean {p : Str} (h : CleanRel p) : segsOf p = splitOn '/' p := by
  obtain ⟨cs, hne, hv, rfl⟩ := h
  rw [segsOf, splitOn_joinWith_noSep hne (fun c hc => (hv c hc).2.2.2)]
  apply List.filter_eq_self.2
  intro m hm
  have := (hv m hm).1
  cases m with
  | nil => exact absurd rfl this
  | cons => rfl

/-- so on paths as they occur in inventories (no empty segments) the mapping is injective -/
theorem C52_injective_clean_partial {hash : Str → Str} {c : DCCfg} {p q : Str} (hu : c.utf = true) (hp : FallbackFree c p)
    (hq : FallbackFree c q) (cp : CleanRel p) (cq : CleanRel q) (h : dcBuild hash c p = dcBuild hash c q) : p = q := by
  have := C52_injective_partial hu hp hq h
  rw [segsOf_clean cp, segsOf_clean cq] at this
  rw [← joinWith_splitOn '/' p, ← joinWith_splitOn '/' q, this]

def dcUTF : DCCfg :=
  newDC { maxPathname := 0, maxSegment := 0, repl := [], white := [], utf := true, folder := [], tuples := 0, tupleSize := 0 }

instance (c : DCCfg) (p : Str) : Decidable (FallbackFree c p) :=
  match h : dcSegs c (splitOn '/' p) with
  | none => .isFalse (by rintro ⟨s, h1, _⟩; rw [h] at h1; simp at h1)
  | some segs =>
    if h2 : (byteLen (joinWith '/' segs) : Int) ≤ c.maxPathname then .isTrue ⟨segs, h, h2⟩
    else .isFalse (by rintro ⟨s, h1, h3⟩; rw [h] at h1; cases h1; exact h2 h3)

example : FallbackFree dcUTF "~a b/=u0020/..".toList := by decide
example : dcBuild (fun _ => []) dcUTF "~a b/=u0020/..".toList = .ok "=u007Ea=u0020b/=u003Du0020/=u002E.".toList := by decide

/-- C52 is violated: empty segments are dropped. -/
theorem C52_full_fails : ¬ C52_full := by
  intro h
  have := h (fun _ => []) dcUTF "a//b".toList "a/b".toList "a/b".toList rfl (by decide) (by decide) (by decide) (by decide)
  exact absurd this (by decide)

/-! ## C53 -/

/-- C53 in full: whatever the configuration and the path (with at least one segment), the result is clean and within
the configured lengths -/
def C53_full : Prop :=
  ∀ (hash : Str → Str) (c : DCCfg) (p r : Str), (∀ x, LowHexStr (hash x)) → segsOf p ≠ [] →
    dcBuild hash (newDC c) p = .ok r →
    CleanRel r ∧ (byteLen r : Int) ≤ (newDC c).maxPathname ∧
      ∀ x ∈ splitOn '/' r, (byteLen x : Int) ≤ (newDC c).maxSegment

/-- C53: no result is longer than configured, in both modes, with or without fallback, for every configuration. -/
theorem C53_path_length (hash : Str → Str) (c : DCCfg) {p r : Str} (h : dcBuild hash c p = .ok r) :
    (byteLen r : Int) ≤ c.maxPathname := by
  have fb : ∀ f, dcFallback hash c f = .ok r → (byteLen r : Int) ≤ c.maxPathname := by
    intro f hf
    unfold dcFallback at hf
    rw [res_bind_eq_ok] at hf
    obtain ⟨ps, _, hf⟩ := hf
    rw [res_bind_eq_ok] at hf
    obtain ⟨x, _, hf⟩ := hf
    simp only at hf
    split at hf
    · simp at hf
    · cases hf; omega
  unfold dcBuild at h
  split at h
  · exact fb _ h
  · split at h
    · exact fb _ h
    · cases h; omega

/-- C53 with UTF encoding, no fallback: the result is clean and every component within the configured length. -/
theorem C53_utf_safe_partial {hash : Str → Str} {c : DCCfg} {p r : Str} (hu : c.utf = true) (hf : FallbackFree c p)
    (hp : segsOf p ≠ []) (h : dcBuild hash c p = .ok r) :
    CleanRel r ∧ (splitOn '/' r).length = (segsOf p).length ∧
      ∀ x ∈ splitOn '/' r, (byteLen x : Int) ≤ c.maxSegment := by
  obtain ⟨segs, h1, h2⟩ := hf
  obtain ⟨e, hl⟩ := dcSegs_some h1
  rw [dcBuild_free ⟨segs, h1, h2⟩] at h
  have hr : r = joinWith '/' segs := by rw [e]; exact (Except.ok.inj h).symm
  rw [cleanedSegs_utf hu] at e
  have hne : segs ≠ [] := by rw [e]; simpa using hp
  have hv : ∀ m ∈ segs, ValidComp m := by
    intro m hm
    rw [e] at hm
    obtain ⟨n, hn, rfl⟩ := List.mem_map.1 hm
    exact dcSegUTF_valid (segsOf_mem hn).1 (segsOf_mem hn).2
  have hsp : splitOn '/' r = segs := by
    rw [hr]; exact splitOn_joinWith_noSep hne (fun m hm => (hv m hm).2.2.2)
  refine ⟨⟨segs, hne, hv, hr⟩, ?_, ?_⟩
  · rw [hsp, e, List.length_map]
  · rw [hsp]; exact hl

theorem mem_dropWhile {α : Type} {p : α → Bool} {l : List α} {x : α} (h : x ∈ l.dropWhile p) : x ∈ l :=
  (List.dropWhile_suffix p).subset h

theorem dcTrim_mem {n : Str} {x : Char} (h : x ∈ dcTrim n) : x ∈ n := by
  unfold dcTrim at h
  simp only at h
  split at h
  · exact h
  · rw [List.mem_reverse] at h
    have := mem_dropWhile h
    rw [List.mem_reverse] at this
    exact mem_dropWhile this

theorem flatMap_repl_mem {f : Char → Bool} {w n : Str} {x : Char}
    (h : x ∈ n.flatMap (fun c => if f c then w else [c])) : x ∈ w ∨ x ∈ n := by
  obtain ⟨c, hc, hx⟩ := List.mem_flatMap.1 h
  split at hx
  · exact .inl hx
  · simp at hx; subst hx; exact .inr hc

/-- C53 without UTF encoding, no fallback: if the replacement strings contain no slash and the one for dangerous
characters something other than a full stop, the result is clean — or empty, when nothing remains of the path — and
every component is within the configured length. -/
theorem C53_plain_safe_partial {hash : Str → Str} {c : DCCfg} {p r : Str} (hu : c.utf = false) (hf : FallbackFree c p)
    (hr : '/' ∉ c.repl) (hw : '/' ∉ c.white) (hd : ∃ x ∈ c.repl, x ≠ '.') (h : dcBuild hash c p = .ok r) :
    r = [] ∨ (CleanRel r ∧ ∀ x ∈ splitOn '/' r, (byteLen x : Int) ≤ c.maxSegment) := by
  obtain ⟨segs, h1, h2⟩ := hf
  obtain ⟨e, hl⟩ := dcSegs_some h1
  rw [dcBuild_free ⟨segs, h1, h2⟩] at h
  have hrs : r = joinWith '/' segs := by rw [e]; exact (Except.ok.inj h).symm
  have hv : ∀ m ∈ segs, ValidComp m := by
    intro m hm
    rw [e] at hm
    unfold cleanedSegs at hm
    obtain ⟨hm1, hm2⟩ := List.mem_filter.1 hm
    obtain ⟨n, hn, rfl⟩ := List.mem_map.1 hm1
    have hns := (segsOf_mem (p := p) hn).2
    have hne : dcSeg c n ≠ [] := by intro h0; rw [h0] at hm2; simp at hm2
    unfold dcSeg at hne ⊢
    rw [hu] at hne ⊢
    simp only [Bool.false_eq_true, if_false] at hne ⊢
    have hn3 : '/' ∉ dcTrim ((n.flatMap (fun c' => if dcWhite c' then c.white else [c'])).flatMap
        (fun c' => if dcDanger c' then c.repl else [c'])) := by
      intro hx
      rcases flatMap_repl_mem (dcTrim_mem hx) with hx | hx
      · exact hr hx
      · rcases flatMap_repl_mem hx with hx | hx
        · exact hw hx
        · exact hns hx
    have hall : ∀ s : Str, allPeriods s = true → dcSegPlain c.repl c.white n ≠ s := by
      intro s hs he
      unfold dcSegPlain at he
      simp only at he
      split at he
      · obtain ⟨x, hx, hxd⟩ := hd
        subst he
        unfold allPeriods at hs
        simp only [Bool.and_eq_true, List.all_eq_true, decide_eq_true_eq] at hs
        exact hxd (hs.2 x (List.mem_append_left _ hx))
      · rename_i hp
        subst he
        exact hp hs
    refine ⟨hne, hall _ (by decide), hall _ (by decide), ?_⟩
    unfold dcSegPlain
    simp only
    split
    · rw [List.mem_append, not_or]
      exact ⟨hr, fun hx => hn3 (List.mem_of_mem_drop hx)⟩
    · exact hn3
  by_cases hne : segs = []
  · left; rw [hrs, hne]; rfl
  · right
    have hsp : splitOn '/' r = segs := by
      rw [hrs]; exact splitOn_joinWith_noSep hne (fun m hm => (hv m hm).2.2.2)
    exact ⟨⟨segs, hne, hv, hrs⟩, by rw [hsp]; exact hl⟩

def dcPlain : DCCfg := { dcUTF with utf := false, repl := "_".toList, white := " ".toList }

example : FallbackFree dcPlain "-a*b / ../c".toList ∧
    dcBuild (fun _ => []) dcPlain "-a*b / ../c".toList = .ok "a_b/_./c".toList := by decide

/-- C53 is violated without UTF encoding: the default replacement string is empty, and `...` becomes `..`. -/
theorem C53_full_fails : ¬ C53_full := by
  intro h
  have h1 := (h (fun _ => []) { dcUTF with utf := false } ".../x".toList "../x".toList (by intro x c hc; simp at hc)
    (by decide) (by decide)).1
  have h2 : pathClean "../x".toList = "../x".toList := h1.clean
  obtain ⟨cs, hne, hv, he⟩ := h1
  have h3 : splitOn '/' "../x".toList = cs := by
    rw [he]; exact splitOn_joinWith_noSep hne (fun m hm => (hv m hm).2.2.2)
  have h4 : "..".toList ∈ cs := by rw [← h3]; decide
  exact (hv _ h4).2.2.1 rfl

/-- and a path of which nothing remains gives the empty path -/
theorem C53_full_fails_empty : dcBuild (fun _ => []) dcPlain "~".toList = .ok [] := by decide

/-! ### The fallback -/

theorem goSlice_lowHex {d t : Str} {a b : Int} (hd : LowHexStr d) (h : goSlice d a b = .ok t) : LowHexStr t :=
  fun x hx => hd x (goSlice_mem h hx)

theorem lowHex_validComp {t : Str} (hne : t ≠ []) (h : LowHexStr t) : ValidComp t :=
  validComp_of_chars hne (fun x hx => .inl (lowHex_idChar (h x hx)))

theorem lowHex_byteLen {t : Str} (h : LowHexStr t) : byteLen t = t.length := by
  unfold byteLen
  induction t with
  | nil => rfl
  | cons a t ih =>
    have ha := h a (by simp)
    have h1 : runeBytes a = 1 := by
      unfold runeBytes; rw [if_pos]; unfold LowHex at ha; omega
    rw [List.map_cons, List.sum_cons, ih (fun x hx => h x (by simp [hx])), h1, List.length_cons]; omega

/-- a clean path whose components are bounded -/
def CleanBounded (n : Int) (p : Str) : Prop :=
  ∃ cs : List Str, cs ≠ [] ∧ (∀ c ∈ cs, ValidComp c ∧ (byteLen c : Int) ≤ n) ∧ p = joinWith '/' cs

theorem CleanBounded.clean {n : Int} {p : Str} (h : CleanBounded n p) : CleanRel p := by
  obtain ⟨cs, h1, h2, h3⟩ := h
  exact ⟨cs, h1, fun c hc => (h2 c hc).1, h3⟩

theorem CleanBounded.comps {n : Int} {p : Str} (h : CleanBounded n p) :
    ∀ x ∈ splitOn '/' p, (byteLen x : Int) ≤ n := by
  obtain ⟨cs, h1, h2, rfl⟩ := h
  rw [splitOn_joinWith_noSep h1 (fun m hm => (h2 m hm).1.2.2.2)]
  exact fun x hx => (h2 x hx).2

theorem CleanBounded.join {n : Int} {p q : Str} (hp : CleanBounded n p) (hq : CleanBounded n q) :
    CleanBounded n (p ++ '/' :: q) := by
  obtain ⟨cs, h1, h2, rfl⟩ := hp
  obtain ⟨ds, h3, h4, rfl⟩ := hq
  refine ⟨cs ++ ds, by simp [h1], ?_, by rw [joinWith_append h1 h3]⟩
  intro c hc
  rcases List.mem_append.1 hc with hc | hc
  · exact h2 c hc
  · exact h4 c hc

theorem digestPieces_bounded {max : Int} (hm : 0 < max) {d ps : Str} (hd : LowHexStr d) (hne : d ≠ [])
    (h : digestPieces max d = .ok ps) : CleanBounded max ps := by
  unfold digestPieces at h
  simp only at h
  rw [res_bind_eq_ok] at h
  obtain ⟨l, hl, h⟩ := h
  cases h
  obtain ⟨h1, h2⟩ := resMapM_mem hl
  have hlen : 0 < d.length := List.length_pos_iff.2 hne
  obtain ⟨m, rfl⟩ := Int.eq_ofNat_of_zero_le (le_of_lt hm)
  have hm' : 0 < m := by omega
  have hdiv : (d.length : Int).tdiv (m : Int) = ((d.length / m : Nat) : Int) := rfl
  have hmod : (d.length : Int).tmod (m : Int) = ((d.length % m : Nat) : Int) := rfl
  rw [hdiv, hmod] at h1
  refine ⟨l, ?_, ?_, rfl⟩
  · rintro rfl
    rw [List.length_range] at h1
    simp only [List.length_nil] at h1
    by_cases h0 : d.length / m = 0
    · have : d.length % m = d.length := Nat.mod_eq_of_lt ((Nat.div_eq_zero_iff_lt hm').1 h0)
      rw [h0, this, if_pos (by omega)] at h1
      omega
    · generalize d.length / m = q at h1 h0
      split at h1 <;> omega
  · intro t ht
    obtain ⟨i, hi, hs⟩ := h2 t ht
    have hx := goSlice_lowHex hd hs
    have hlt := goSlice_length hs
    have hin : (i : Int) * (m : Int) < d.length := by
      have hi' := List.mem_range.1 hi
      rw [hdiv, hmod] at hi'
      have key : i * m < d.length := by
        have hdm := Nat.div_add_mod d.length m
        by_cases hz : d.length % m > 0
        · rw [if_pos (by omega)] at hi'
          have : i ≤ d.length / m := by omega
          have := Nat.mul_le_mul_right m this
          rw [mul_comm (d.length / m)] at this
          omega
        · rw [if_neg (by omega)] at hi'
          have : i + 1 ≤ d.length / m := by omega
          have := Nat.mul_le_mul_right m this
          rw [mul_comm (d.length / m)] at this
          have e : (i + 1) * m = i * m + m := by ring
          omega
      exact_mod_cast key
    have e : ((i : Int) + 1) * (m : Int) = (i : Int) * m + m := by ring
    rw [e] at hlt
    refine ⟨lowHex_validComp ?_ hx, ?_⟩
    · rintro rfl
      simp only [List.length_nil] at hlt
      omega
    · rw [lowHex_byteLen hx]; omega

theorem dcTuples_bounded {c : DCCfg} {d : Str} (hd : LowHexStr d) (hs : c.tupleSize ≤ c.maxSegment) (k : Nat) {r x : Str}
    (hr : CleanBounded c.maxSegment r) (h : dcTuples c d k r = .ok x) : CleanBounded c.maxSegment x := by
  induction k generalizing r with
  | zero => cases h; exact hr
  | succ k ih =>
    rw [dcTuples, res_bind_eq_ok] at h
    obtain ⟨t, ht, h⟩ := h
    refine ih ?_ h
    by_cases hne : t = []
    · subst hne
      have hr' := hr.clean.clean
      have hr2 : pathJoin [[], r] = r := by
        rw [pathJoin]
        have := hr.clean.ne_nil
        cases r with
        | nil => exact absurd rfl this
        | cons a r => rw [pathJoin]; exacts [hr', by simp]
      rw [hr2]; exact hr
    · have hx := goSlice_lowHex hd ht
      have hb : CleanBounded c.maxSegment t := by
        refine ⟨[t], by simp, ?_, by simp [joinWith]⟩
        intro y hy
        simp at hy; subst hy
        refine ⟨lowHex_validComp hne hx, ?_⟩
        rw [lowHex_byteLen hx, goSlice_length ht]; omega
      rw [pathJoin_two hb.clean hr.clean]
      exact hb.join hr

/-- C53, fallback: with a clean fallback folder, positive segment length and tuples not longer than a segment, every
result of the fallback is clean and within the configured lengths. -/
theorem C53_fallback_safe_partial {hash : Str → Str} {c : DCCfg} {f r : Str} (hx : ∀ x, LowHexStr (hash x))
    (hne : hash f ≠ []) (hm : 0 < c.maxSegment) (hfo : CleanBounded c.maxSegment c.folder)
    (hs : c.tupleSize ≤ c.maxSegment) (h : dcFallback hash c f = .ok r) :
    CleanRel r ∧ (byteLen r : Int) ≤ c.maxPathname ∧ ∀ x ∈ splitOn '/' r, (byteLen x : Int) ≤ c.maxSegment := by
  unfold dcFallback at h
  rw [res_bind_eq_ok] at h
  obtain ⟨ps, hps, h⟩ := h
  rw [res_bind_eq_ok] at h
  obtain ⟨x, ht, h⟩ := h
  have b1 := digestPieces_bounded hm (hx f) hne hps
  have b2 := dcTuples_bounded (hx f) hs _ b1 ht
  have b3 := hfo.join b2
  simp only at h
  rw [pathJoin_two hfo.clean b2.clean, b3.clean.clean] at h
  have htrim : trimLeft (c.folder ++ '/' :: x) "/".toList = c.folder ++ '/' :: x := by
    obtain ⟨cs, h1, h2, h3⟩ := b3
    rw [h3]
    cases cs with
    | nil => exact absurd rfl h1
    | cons a cs =>
      have ha := (h2 a (by simp)).1
      have : ∃ y ys, joinWith '/' (a :: cs) = y :: ys ∧ y ≠ '/' := by
        obtain ⟨n1, _, _, n4⟩ := ha
        cases a with
        | nil => exact absurd rfl n1
        | cons y a =>
          simp only [List.mem_cons, not_or] at n4
          cases cs with
          | nil => exact ⟨y, a, by simp [joinWith], fun e => n4.1 e.symm⟩
          | cons b cs => exact ⟨y, _, by rw [joinWith]; rfl, fun e => n4.1 e.symm⟩
      obtain ⟨y, ys, he, hy⟩ := this
      rw [he]
      unfold trimLeft
      rw [List.dropWhile_cons]
      rw [if_neg]
      simpa using hy
  rw [htrim] at h
  split at h
  · simp at h
  · cases h
    exact ⟨b3.clean, by omega, b3.comps⟩

/-- the fallback of a long name: the digest below the configured folder, after the tuples -/
example : dcFallback (fun _ => "0123456789abcdef".toList) { dcUTF with maxSegment := 10, tuples := 2, tupleSize := 1 }
    "x".toList = .ok "fallback/0/1/0123456789/abcdef".toList := by decide

/-- the fallback crashes for tuples beyond the digest -/
theorem C53_full_fails_crash : dcFallback (fun _ => "0123".toList) { dcUTF with tuples := 3, tupleSize := 3 } "x".toList =
    .error (.panic "slice bounds out of range") := by decide

end Gocfl
