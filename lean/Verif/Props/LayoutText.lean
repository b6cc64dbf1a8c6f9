import Verif.Props.Layout
import Verif.Model.JsonLemmas

/-!
# C194: the n-tuple layout works on characters

The layout 0007 is documented (also in the comments of the code, 0007:149-186) to cut an id into tuples of characters, and to reverse its
characters.  The code reverses characters but counts and cuts bytes.
-/

namespace Gocfl

/-- a Go string with the characters of a text -/
def goText (t : Str) : Str := bytesStr (utf8 t)

/-! ## Characters and bytes -/

theorem byteChar_toNat (a : UInt8) : (Char.ofNat a.toNat).toNat = a.toNat := by
  have h : a.toNat < 256 := a.toNat_lt
  have hv : a.toNat.isValidChar := Or.inl (by omega)
  rw [Char.ofNat, dif_pos hv]
  rfl

theorem byteChar_inj {a b : UInt8} (h : Char.ofNat a.toNat = Char.ofNat b.toNat) : a = b := by
  have := congrArg Char.toNat h
  rw [byteChar_toNat, byteChar_toNat] at this
  exact UInt8.toNat_inj.1 this

theorem bytesStr_inj {a b : Bytes} (h : bytesStr a = bytesStr b) : a = b :=
  List.map_injective_iff.2 (fun _ _ => byteChar_inj) h

theorem goText_append (s t : Str) : goText (s ++ t) = goText s ++ goText t := by
  simp [goText, utf8, bytesStr]

theorem goText_length (t : Str) : (goText t).length = (utf8 t).length := by simp [goText, bytesStr]

theorem charOf_toNat {n : Nat} (h : n.isValidChar) : (Char.ofNat n).toNat = n := by
  rw [Char.ofNat, dif_pos h]; rfl

theorem utf8_two {a b : UInt8} (h1 : 0xC2 ≤ a.toNat) (h2 : a.toNat < 0xE0) (h3 : 0x80 ≤ b.toNat) (h4 : b.toNat < 0xC0) :
    utf8Char (Char.ofNat ((a.toNat - 0xC0) * 64 + (b.toNat - 0x80))) = [a, b] := by
  have hb8 : ∀ x : UInt8, ∀ n, n = x.toNat → by8 n = x := fun x n h => by subst h; exact UInt8.ofNat_toNat
  unfold utf8Char
  rw [charOf_toNat (Or.inl (by omega)), if_neg (by omega), if_pos (by omega), hb8 a _ (by omega), hb8 b _ (by omega)]

theorem utf8_three {a b c : UInt8} (h1 : 0xE0 ≤ a.toNat) (h2 : a.toNat < 0xF0) (h3 : 0x80 ≤ b.toNat) (h4 : b.toNat < 0xC0)
    (h5 : 0x80 ≤ c.toNat) (h6 : c.toNat < 0xC0) (hv : Nat.isValidChar ((a.toNat - 0xE0) * 4096 + (b.toNat - 0x80) * 64 + (c.toNat - 0x80)))
    (h7 : 0x800 ≤ (a.toNat - 0xE0) * 4096 + (b.toNat - 0x80) * 64 + (c.toNat - 0x80)) :
    utf8Char (Char.ofNat ((a.toNat - 0xE0) * 4096 + (b.toNat - 0x80) * 64 + (c.toNat - 0x80))) = [a, b, c] := by
  have hb8 : ∀ x : UInt8, ∀ n, n = x.toNat → by8 n = x := fun x n h => by subst h; exact UInt8.ofNat_toNat
  unfold utf8Char
  rw [charOf_toNat hv, if_neg (by omega), if_neg (by omega), if_pos (by omega), hb8 a _ (by omega), hb8 b _ (by omega), hb8 c _ (by omega)]

theorem utf8_four {a b c d : UInt8} (h1 : 0xF0 ≤ a.toNat) (h2 : a.toNat < 0xF8) (h3 : 0x80 ≤ b.toNat) (h4 : b.toNat < 0xC0)
    (h5 : 0x80 ≤ c.toNat) (h6 : c.toNat < 0xC0) (h8 : 0x80 ≤ d.toNat) (h9 : d.toNat < 0xC0)
    (hv : Nat.isValidChar ((a.toNat - 0xF0) * 262144 + (b.toNat - 0x80) * 4096 + (c.toNat - 0x80) * 64 + (d.toNat - 0x80)))
    (h7 : 0x10000 ≤ (a.toNat - 0xF0) * 262144 + (b.toNat - 0x80) * 4096 + (c.toNat - 0x80) * 64 + (d.toNat - 0x80)) :
    utf8Char (Char.ofNat ((a.toNat - 0xF0) * 262144 + (b.toNat - 0x80) * 4096 + (c.toNat - 0x80) * 64 + (d.toNat - 0x80))) = [a, b, c, d] := by
  have hb8 : ∀ x : UInt8, ∀ n, n = x.toNat → by8 n = x := fun x n h => by subst h; exact UInt8.ofNat_toNat
  unfold utf8Char
  rw [charOf_toNat hv, if_neg (by omega), if_neg (by omega), if_neg (by omega), hb8 a _ (by omega), hb8 b _ (by omega), hb8 c _ (by omega),
    hb8 d _ (by omega)]

/-- the two models of `utf8.DecodeRune` agree -/
theorem runeLen_decode (a : UInt8) (r : Bytes) :
    (runeLen (bytesStr (a :: r)) = none ∧ decodeRune (a :: r) = (badRune, 1)) ∨
    ∃ k c, runeLen (bytesStr (a :: r)) = some k ∧ decodeRune (a :: r) = (c, k) ∧ utf8Char c = (a :: r).take k ∧ 1 ≤ k ∧ k ≤ r.length + 1 := by
  have ha : a.toNat < 256 := a.toNat_lt
  by_cases h1 : a.toNat < 0x80
  · right
    refine ⟨1, Char.ofNat a.toNat, ?_, ?_, ?_, le_refl 1, by omega⟩
    · simp only [bytesStr, List.map_cons, runeLen, byteChar_toNat, if_pos h1]
    · simp only [decodeRune, if_pos h1]
    · unfold utf8Char
      rw [byteChar_toNat, if_pos h1]
      show [UInt8.ofNat a.toNat] = [a]
      rw [UInt8.ofNat_toNat]
  by_cases h2 : a.toNat < 0xC2
  · left
    constructor
    · rcases r with _ | ⟨b, _ | ⟨c, _ | ⟨d, r⟩⟩⟩ <;>
        simp only [bytesStr, List.map_cons, List.map_nil, runeLen, byteChar_toNat, if_neg h1, show ¬ (0xC2 ≤ a.toNat ∧ a.toNat ≤ 0xDF) by omega,
          show ¬ (0xE0 ≤ a.toNat ∧ a.toNat ≤ 0xEF) by omega, show ¬ (0xF0 ≤ a.toNat ∧ a.toNat ≤ 0xF4) by omega, if_false]
    · rcases r with _ | ⟨b, r⟩
      · simp only [decodeRune, if_neg h1]; split_ifs <;> rfl
      · simp only [decodeRune, if_neg h1]
        split_ifs with h3 h4 h5 h6
        · rfl
        · exfalso
          simp only [isCont8, Bool.and_eq_true, decide_eq_true_eq] at h5; omega
        · rfl
        · exfalso; omega
        · exfalso; omega
  by_cases h3 : a.toNat < 0xE0
  · rcases r with _ | ⟨b, r⟩
    · left; constructor
      · simp only [bytesStr, List.map_cons, List.map_nil, runeLen, byteChar_toNat, if_neg h1]
      · simp only [decodeRune, if_neg h1, if_pos h3]; split_ifs <;> rfl
    · by_cases hc : 0x80 ≤ b.toNat ∧ b.toNat < 0xC0
      · right
        refine ⟨2, _, ?_, ?_, utf8_two (by omega) h3 hc.1 hc.2, by omega, by simp⟩
        · simp only [bytesStr, List.map_cons, runeLen, byteChar_toNat, if_neg h1]
          rw [if_pos (by omega), if_pos (by simpa [isCont, byteChar_toNat] using hc)]
        · simp only [decodeRune, if_neg h1, if_pos h3, show ¬ a.toNat < 0xC0 by omega, if_false]
          rw [if_pos]
          simp only [isCont8, Bool.and_eq_true, decide_eq_true_eq]; omega
      · left; constructor
        · simp only [bytesStr, List.map_cons, runeLen, byteChar_toNat, if_neg h1]
          rw [if_pos (by omega), if_neg (by simpa [isCont, byteChar_toNat] using hc)]
        · simp only [decodeRune, if_neg h1, if_pos h3, show ¬ a.toNat < 0xC0 by omega, if_false]
          rw [if_neg]
          simp only [isCont8, Bool.and_eq_true, decide_eq_true_eq]; omega
  by_cases h4 : a.toNat < 0xF0
  · have hd : ∀ r', (∀ b c r'', r' ≠ b :: c :: r'') → decodeRune (a :: r') = (badRune, 1) := by
      intro r' hr
      rcases r' with _ | ⟨b, _ | ⟨c, r'⟩⟩
      · simp only [decodeRune, if_neg h1, if_neg h3, if_pos h4]; split_ifs <;> rfl
      · simp only [decodeRune, if_neg h1, if_neg h3, if_pos h4]; split_ifs <;> rfl
      · exact absurd rfl (hr _ _ _)
    rcases r with _ | ⟨b, _ | ⟨c, r⟩⟩
    · exact Or.inl ⟨by simp only [bytesStr, List.map_cons, List.map_nil, runeLen, byteChar_toNat, if_neg h1], hd _ (by simp)⟩
    · exact Or.inl ⟨by simp only [bytesStr, List.map_cons, List.map_nil, runeLen, byteChar_toNat, if_neg h1,
        show ¬ (0xC2 ≤ a.toNat ∧ a.toNat ≤ 0xDF) by omega, if_false], hd _ (by simp)⟩
    · by_cases hc : (0x80 ≤ b.toNat ∧ b.toNat < 0xC0) ∧ (0x80 ≤ c.toNat ∧ c.toNat < 0xC0) ∧ (a.toNat = 0xE0 → 0xA0 ≤ b.toNat) ∧
          (a.toNat = 0xED → b.toNat < 0xA0)
      · obtain ⟨hb, hc, hx, hy⟩ := hc
        have hv : Nat.isValidChar ((a.toNat - 0xE0) * 4096 + (b.toNat - 0x80) * 64 + (c.toNat - 0x80)) := by
          unfold Nat.isValidChar
          by_cases e : a.toNat = 0xED
          · have := hy e; left; omega
          · by_cases e' : a.toNat < 0xED
            · left; omega
            · right; omega
        have h8 : 0x800 ≤ (a.toNat - 0xE0) * 4096 + (b.toNat - 0x80) * 64 + (c.toNat - 0x80) := by
          by_cases e : a.toNat = 0xE0
          · have := hx e; omega
          · omega
        right
        refine ⟨3, _, ?_, ?_, utf8_three (by omega) h4 hb.1 hb.2 hc.1 hc.2 hv h8, by omega, by simp⟩
        · simp only [bytesStr, List.map_cons, runeLen, byteChar_toNat, if_neg h1, show ¬ (0xC2 ≤ a.toNat ∧ a.toNat ≤ 0xDF) by omega, if_false]
          rw [if_pos (by omega), if_pos]
          simp only [isCont, byteChar_toNat, Bool.and_eq_true, decide_eq_true_eq, Bool.not_eq_true', Bool.and_eq_false_iff, decide_eq_false_iff_not]
          omega
        · simp only [decodeRune, if_neg h1, if_neg h3, if_pos h4, show ¬ a.toNat < 0xC0 by omega, if_false]
          rw [if_pos]
          simp only [isCont8, Bool.and_eq_true, decide_eq_true_eq]
          exact ⟨⟨⟨hb, hc⟩, hv⟩, h8⟩
      · left; constructor
        · simp only [bytesStr, List.map_cons, runeLen, byteChar_toNat, if_neg h1, show ¬ (0xC2 ≤ a.toNat ∧ a.toNat ≤ 0xDF) by omega, if_false]
          rw [if_pos (by omega), if_neg]
          simp only [isCont, byteChar_toNat, Bool.and_eq_true, decide_eq_true_eq, Bool.not_eq_true', Bool.and_eq_false_iff, decide_eq_false_iff_not]
          omega
        · simp only [decodeRune, if_neg h1, if_neg h3, if_pos h4, show ¬ a.toNat < 0xC0 by omega, if_false]
          rw [if_neg]
          simp only [isCont8, Bool.and_eq_true, decide_eq_true_eq, Nat.isValidChar]
          omega
  · have hd : ∀ r', (∀ b c d r'', r' ≠ b :: c :: d :: r'') → decodeRune (a :: r') = (badRune, 1) := by
      intro r' hr
      rcases r' with _ | ⟨b, _ | ⟨c, _ | ⟨d, r'⟩⟩⟩
      · simp only [decodeRune, if_neg h1, if_neg h3, if_neg h4]; split_ifs <;> rfl
      · simp only [decodeRune, if_neg h1, if_neg h3, if_neg h4]; split_ifs <;> rfl
      · simp only [decodeRune, if_neg h1, if_neg h3, if_neg h4]; split_ifs <;> rfl
      · exact absurd rfl (hr _ _ _ _)
    rcases r with _ | ⟨b, _ | ⟨c, _ | ⟨d, r⟩⟩⟩
    · exact Or.inl ⟨by simp only [bytesStr, List.map_cons, List.map_nil, runeLen, byteChar_toNat, if_neg h1], hd _ (by simp)⟩
    · exact Or.inl ⟨by simp only [bytesStr, List.map_cons, List.map_nil, runeLen, byteChar_toNat, if_neg h1,
        show ¬ (0xC2 ≤ a.toNat ∧ a.toNat ≤ 0xDF) by omega, if_false], hd _ (by simp)⟩
    · exact Or.inl ⟨by simp only [bytesStr, List.map_cons, List.map_nil, runeLen, byteChar_toNat, if_neg h1,
        show ¬ (0xC2 ≤ a.toNat ∧ a.toNat ≤ 0xDF) by omega, show ¬ (0xE0 ≤ a.toNat ∧ a.toNat ≤ 0xEF) by omega, if_false], hd _ (by simp)⟩
    · by_cases hc : (0x80 ≤ b.toNat ∧ b.toNat < 0xC0) ∧ (0x80 ≤ c.toNat ∧ c.toNat < 0xC0) ∧ (0x80 ≤ d.toNat ∧ d.toNat < 0xC0) ∧
          a.toNat ≤ 0xF4 ∧ (a.toNat = 0xF0 → 0x90 ≤ b.toNat) ∧ (a.toNat = 0xF4 → b.toNat < 0x90)
      · obtain ⟨hb, hc, he, hz, hx, hy⟩ := hc
        have hv : Nat.isValidChar ((a.toNat - 0xF0) * 262144 + (b.toNat - 0x80) * 4096 + (c.toNat - 0x80) * 64 + (d.toNat - 0x80)) := by
          unfold Nat.isValidChar; right
          by_cases e : a.toNat = 0xF4
          · have := hy e; omega
          · by_cases e' : a.toNat = 0xF0
            · have := hx e'; omega
            · omega
        have h8 : 0x10000 ≤ (a.toNat - 0xF0) * 262144 + (b.toNat - 0x80) * 4096 + (c.toNat - 0x80) * 64 + (d.toNat - 0x80) := by
          by_cases e : a.toNat = 0xF0
          · have := hx e; omega
          · omega
        right
        refine ⟨4, _, ?_, ?_, utf8_four (by omega) (by omega) hb.1 hb.2 hc.1 hc.2 he.1 he.2 hv h8, by omega, by simp⟩
        · simp only [bytesStr, List.map_cons, runeLen, byteChar_toNat, if_neg h1, show ¬ (0xC2 ≤ a.toNat ∧ a.toNat ≤ 0xDF) by omega,
            show ¬ (0xE0 ≤ a.toNat ∧ a.toNat ≤ 0xEF) by omega, if_false]
          rw [if_pos (by omega), if_pos]
          simp only [isCont, byteChar_toNat, Bool.and_eq_true, decide_eq_true_eq, Bool.not_eq_true', Bool.and_eq_false_iff, decide_eq_false_iff_not]
          omega
        · simp only [decodeRune, if_neg h1, if_neg h3, if_neg h4, show ¬ a.toNat < 0xC0 by omega, if_false]
          rw [if_pos]
          simp only [isCont8, Bool.and_eq_true, decide_eq_true_eq]
          exact ⟨⟨⟨⟨⟨by omega, hb⟩, hc⟩, he⟩, hv⟩, h8⟩
      · left; constructor
        · simp only [bytesStr, List.map_cons, runeLen, byteChar_toNat, if_neg h1, show ¬ (0xC2 ≤ a.toNat ∧ a.toNat ≤ 0xDF) by omega,
            show ¬ (0xE0 ≤ a.toNat ∧ a.toNat ≤ 0xEF) by omega, if_false]
          split_ifs with h5 h6
          · exfalso; apply hc
            simp only [isCont, byteChar_toNat, Bool.and_eq_true, decide_eq_true_eq, Bool.not_eq_true', Bool.and_eq_false_iff, decide_eq_false_iff_not] at h6
            omega
          · rfl
          · rfl
        · simp only [decodeRune, if_neg h1, if_neg h3, if_neg h4, show ¬ a.toNat < 0xC0 by omega, if_false]
          rw [if_neg]
          simp only [isCont8, Bool.and_eq_true, decide_eq_true_eq, Nat.isValidChar]
          omega

/-- characters of a Go string -/
theorem runesFuel_go (n : Nat) (b : Bytes) (h : b.length ≤ n) : runesFuel n (bytesStr b) = (goRunesN n b).map (fun c => bytesStr (utf8Char c)) := by
  induction n generalizing b with
  | zero => cases b with
    | nil => rfl
    | cons a r => simp at h
  | succ n ih =>
    cases b with
    | nil => rfl
    | cons a r =>
      simp only [List.length_cons] at h
      show (match runeLen (bytesStr (a :: r)) with
        | none => replacementRune :: runesFuel n (bytesStr r)
        | some k => (bytesStr (a :: r)).take k :: runesFuel n ((bytesStr (a :: r)).drop k)) = _
      rw [goRunesN]
      rcases runeLen_decode a r with ⟨h1, h2⟩ | ⟨k, c, h1, h2, h3, h4, h5⟩
      · rw [h1, h2, ih _ (by omega)]
        rfl
      · rw [h1, h2]
        obtain ⟨j, rfl⟩ : ∃ j, k = j + 1 := ⟨k - 1, by omega⟩
        simp only [List.map_cons, h3, Nat.add_sub_cancel]
        have e1 : (bytesStr (a :: r)).take (j + 1) = bytesStr ((a :: r).take (j + 1)) := by simp [bytesStr]
        have e2 : (bytesStr (a :: r)).drop (j + 1) = bytesStr (r.drop j) := by simp [bytesStr]
        rw [e1, e2, ih _ (by simp; omega)]

theorem reverseRunes_go (b : Bytes) : reverseRunes (bytesStr b) = goText (goRunes b).reverse := by
  have hl : (bytesStr b).length = b.length := by simp [bytesStr]
  unfold reverseRunes runes
  rw [hl, runesFuel_go _ _ (le_refl _), ← List.map_reverse]
  unfold goText goRunes utf8 bytesStr
  rw [List.map_flatMap, List.flatMap_def]

/-- Reversing a text reverses its characters. -/
theorem C194_reversed (t : Str) : reverseRunes (goText t) = goText t.reverse := by
  unfold goText
  rw [reverseRunes_go, goRunes_utf8]; rfl

/-- Reversing twice gives the string back exactly if the string is text. -/
theorem C194_reversed_iff (b : Bytes) : reverseRunes (reverseRunes (bytesStr b)) = bytesStr b ↔ ∃ t, bytesStr b = goText t := by
  rw [reverseRunes_go, C194_reversed, List.reverse_reverse]
  constructor
  · intro h; exact ⟨_, h.symm⟩
  · rintro ⟨t, h⟩
    have : b = utf8 t := bytesStr_inj h
    rw [this, goRunes_utf8]; rfl

/-! ## Texts inside texts -/

theorem utf8_append (s t : Str) : utf8 (s ++ t) = utf8 s ++ utf8 t := by simp [utf8]

theorem utf8Char_parts (c : Char) : ∃ a r, utf8Char c = a :: r ∧ ¬ (0x80 ≤ a.toNat ∧ a.toNat < 0xC0) ∧ ∀ b ∈ r, 0x80 ≤ b.toNat ∧ b.toNat < 0xC0 := by
  have hlt := char_lt c
  unfold utf8Char
  split
  · exact ⟨_, [], rfl, by rw [by8_toNat (by omega)]; omega, by simp⟩
  · split
    · refine ⟨_, _, rfl, by rw [by8_toNat (by omega)]; omega, ?_⟩
      intro b hb
      simp only [List.mem_cons, List.not_mem_nil, or_false] at hb
      rcases hb with rfl; rw [by8_toNat (by omega)]; omega
    · split
      · refine ⟨_, _, rfl, by rw [by8_toNat (by omega)]; omega, ?_⟩
        intro b hb
        simp only [List.mem_cons, List.not_mem_nil, or_false] at hb
        rcases hb with rfl | rfl <;> (rw [by8_toNat (by omega)]; omega)
      · refine ⟨_, _, rfl, by rw [by8_toNat (by omega)]; omega, ?_⟩
        intro b hb
        simp only [List.mem_cons, List.not_mem_nil, or_false] at hb
        rcases hb with rfl | rfl | rfl <;> (rw [by8_toNat (by omega)]; omega)

/-- a byte that begins a character is found at the beginning of a character -/
theorem utf8_boundary {t : Str} {a y : Bytes} {x : UInt8} (h : utf8 t = a ++ x :: y) (hx : ¬ (0x80 ≤ x.toNat ∧ x.toNat < 0xC0)) :
    ∃ s u, t = s ++ u ∧ a = utf8 s ∧ x :: y = utf8 u := by
  induction t generalizing a with
  | nil => simp [utf8] at h
  | cons c t ih =>
    have e : utf8 (c :: t) = utf8Char c ++ utf8 t := rfl
    rcases a with _ | ⟨a0, a'⟩
    · exact ⟨[], c :: t, rfl, rfl, h.symm⟩
    · rw [e] at h
      rcases List.append_eq_append_iff.1 h with ⟨z, h1, h2⟩ | ⟨z, h1, h2⟩
      · obtain ⟨s, u, rfl, h3, h4⟩ := ih h2
        exact ⟨c :: s, u, rfl, by rw [h1, h3]; rfl, h4⟩
      · rcases z with _ | ⟨z0, z⟩
        · rw [List.append_nil] at h1
          exact ⟨[c], t, rfl, by rw [← h1]; simp [utf8], by simpa using h2⟩
        · exfalso
          obtain ⟨b, r, h3, _, h4⟩ := utf8Char_parts c
          rw [h3] at h1
          simp only [List.cons_append, List.cons.injEq] at h1 h2
          rw [h1.2, ← h2.1] at h4
          exact hx (h4 x (by simp))

theorem utf8_prefix {d u : Str} {b : Bytes} (h : utf8 u = utf8 d ++ b) : ∃ v, u = d ++ v ∧ b = utf8 v := by
  induction d generalizing u with
  | nil => exact ⟨u, rfl, by simpa [utf8] using h.symm⟩
  | cons c d ih =>
    have e : utf8 (c :: d) = utf8Char c ++ utf8 d := rfl
    rw [e, List.append_assoc] at h
    cases u with
    | nil =>
      obtain ⟨x, r, h3, _⟩ := utf8Char_parts c
      rw [h3] at h; simp [utf8] at h
    | cons c' u =>
      have e' : utf8 (c' :: u) = utf8Char c' ++ utf8 u := rfl
      rw [e'] at h
      have h1 := decodeRune_utf8 c' (utf8 u)
      rw [h, decodeRune_utf8 c] at h1
      have : c = c' := (Prod.mk.inj h1).1
      subst this
      obtain ⟨v, rfl, hv⟩ := ih (List.append_cancel_left h)
      exact ⟨v, rfl, hv⟩

/-- a text is found in a text only between its characters -/
theorem goText_occurs {t d a b : Str} (hd : d ≠ []) (h : goText t = a ++ goText d ++ b) : ∃ s v, t = s ++ d ++ v ∧ a = goText s ∧ b = goText v := by
  unfold goText bytesStr at h
  rw [List.append_assoc] at h
  obtain ⟨a1, r1, h1, ha, h2⟩ := List.map_eq_append_iff.1 h
  obtain ⟨d1, b1, h3, h4, hb⟩ := List.map_eq_append_iff.1 h2
  have h5 : d1 = utf8 d := bytesStr_inj h4
  rw [h3, h5] at h1
  obtain ⟨c, d', rfl⟩ := List.exists_cons_of_ne_nil hd
  obtain ⟨x, r, h6, h7, _⟩ := utf8Char_parts c
  have e : utf8 (c :: d') ++ b1 = x :: (r ++ utf8 d' ++ b1) := by
    show utf8Char c ++ utf8 d' ++ b1 = _
    rw [h6]; simp
  have h1' := h1
  rw [e] at h1'
  obtain ⟨s, u, rfl, rfl, h8⟩ := utf8_boundary h1' h7
  rw [← e] at h8
  obtain ⟨v, rfl, rfl⟩ := utf8_prefix h8.symm
  exact ⟨s, v, by simp, ha.symm, hb.symm⟩

theorem afterLast_text {d t rest : Str} (hd : d ≠ []) (h : AfterLast d t rest) : AfterLast (goText d) (goText t) (goText rest) := by
  rcases h with ⟨h1, rfl⟩ | ⟨pre, h1, h2⟩
  · refine Or.inl ⟨fun a b hab => ?_, rfl⟩
    obtain ⟨s, v, e, _⟩ := goText_occurs hd hab
    exact h1 s v e
  · refine Or.inr ⟨goText pre, by rw [h1, goText_append, goText_append], fun a b hab => ?_⟩
    obtain ⟨s, v, e, rfl, _⟩ := goText_occurs hd hab
    have hl := h2 s v e
    have hp : s <+: pre := List.prefix_of_prefix_length_le (l₃ := t) ⟨d ++ v, by rw [e]; simp⟩ ⟨d ++ rest, by rw [h1]; simp⟩ hl
    obtain ⟨q, rfl⟩ := hp
    rw [goText_append, List.length_append]; omega

theorem utf8Char_length (c : Char) : 1 ≤ (utf8Char c).length ∧ ((utf8Char c).length = 1 ↔ c.toNat < 128) := by
  unfold utf8Char
  split
  · rename_i h; simp [h]
  · rename_i h
    split
    · simp; omega
    · split <;> (simp; omega)

theorem goText_length_iff (t : Str) : t.length ≤ (goText t).length ∧ ((goText t).length = t.length ↔ ∀ x ∈ t, x.toNat < 128) := by
  induction t with
  | nil => simp [goText, utf8, bytesStr]
  | cons c t ih =>
    have h := utf8Char_length c
    have e : (goText (c :: t)).length = (utf8Char c).length + (goText t).length := by
      rw [goText_length, goText_length]; show (utf8Char c ++ utf8 t).length = _; simp
    rw [e]
    simp only [List.length_cons, List.mem_cons, forall_eq_or_imp]
    refine ⟨by omega, ?_⟩
    rw [← h.2, ← ih.2]
    omega

theorem goText_ascii {t : Str} (h : ∀ x ∈ t, x.toNat < 128) : goText t = t := by
  induction t with
  | nil => rfl
  | cons c t ih =>
    have hc : c.toNat < 128 := h c (by simp)
    have e : goText (c :: t) = bytesStr (utf8Char c) ++ goText t := by
      show bytesStr (utf8Char c ++ utf8 t) = _; simp [bytesStr, goText]
    rw [e, ih (fun x hx => h x (by simp [hx]))]
    unfold utf8Char
    rw [if_pos hc]
    show Char.ofNat (by8 c.toNat).toNat :: t = c :: t
    rw [by8_toNat (by omega), char_ofNat]

/-! ## The layout -/

/-- the padded id, in characters -/
def padText (left : Bool) (n : Nat) (t : Str) : Str :=
  if left then List.replicate (n - t.length) '0' ++ t else t ++ List.replicate (n - t.length) '0'

/-- what the layout is documented to do with a text: the part after the last delimiter is padded with zeros to the length of the tuples,
possibly reversed, and cut into `m` tuples of `k` characters -/
structure TextTuples (d t rest : Str) (k m : Nat) (left rev : Bool) (ts : List Str) : Prop where
  after : if d = [] then rest = t else AfterLast d t rest
  number : ts.length = m
  size : ∀ x ∈ ts, x.length = k
  source : ts.flatten <+: (if rev then (padText left (k * m) rest).reverse else padText left (k * m) rest)

/-- the configuration with these parameters -/
def textCfg (d : Str) (k m : Nat) (left rev : Bool) : OmitCfg :=
  ⟨goText d, k, m, if left then "left".toList else "right".toList, rev⟩

theorem goText_joinWith (l : List Str) (r : Str) : goText (joinWith '/' (l ++ [r])) = joinWith '/' (l.map goText ++ [goText r]) := by
  have hs : goText "/".toList = "/".toList := by decide
  induction l with
  | nil => simp [joinWith]
  | cons x l ih =>
    have e : ∀ a b : Str, goText (a ++ '/' :: b) = goText a ++ '/' :: goText b := by
      intro a b
      rw [show a ++ '/' :: b = a ++ ("/".toList ++ b) from rfl, goText_append, goText_append, hs]; rfl
    rw [List.cons_append, joinWith_cons (by simp), e, ih, List.map_cons, List.cons_append, joinWith_cons (by simp)]

theorem flatten_same {k : Nat} : ∀ {a b : List Str}, a.length = b.length → (∀ x ∈ a, x.length = k) → (∀ x ∈ b, x.length = k) →
    a.flatten = b.flatten → a = b
  | [], [], _, _, _, _ => rfl
  | [], _ :: _, h, _, _, _ => by simp at h
  | _ :: _, [], h, _, _, _ => by simp at h
  | x :: a, y :: b, h, h1, h2, h3 => by
    rw [List.flatten_cons, List.flatten_cons] at h3
    have hl : x.length = y.length := (h1 x (by simp)).trans (h2 y (by simp)).symm
    obtain ⟨rfl, h4⟩ := List.append_inj h3 hl
    rw [flatten_same (by simpa using h) (fun z hz => h1 z (by simp [hz])) (fun z hz => h2 z (by simp [hz])) h4]

theorem flatten_len {k : Nat} {ts : List Str} (h : ∀ x ∈ ts, x.length = k) : ts.flatten.length = ts.length * k := by
  induction ts with
  | nil => simp
  | cons x ts ih => rw [List.flatten_cons, List.length_append, h x (by simp), ih (fun y hy => h y (by simp [hy])), List.length_cons]; ring

theorem join_total (l : List Str) (r : Str) : (joinWith '/' (l ++ [r])).length = l.flatten.length + l.length + r.length := by
  induction l with
  | nil => simp [joinWith]
  | cons x l ih =>
    rw [List.cons_append, joinWith_cons (by simp)]
    simp only [List.length_append, List.length_cons, List.flatten_cons] at ih ⊢
    rw [ih]; omega

theorem flatten_goText (ts : List Str) : (ts.map goText).flatten = goText ts.flatten := by
  induction ts with
  | nil => rfl
  | cons x ts ih => rw [List.map_cons, List.flatten_cons, List.flatten_cons, ih, goText_append]

theorem padText_length (left : Bool) (n : Nat) (t : Str) : (padText left n t).length = max n t.length := by
  unfold padText; split <;> simp <;> omega

/-- The path of a text is the documented one exactly if the characters in the tuples are ASCII. -/
theorem C194_characters_iff {d t rest : Str} {k m : Nat} {left rev : Bool} {ts : List Str} (hk : 0 < k)
    (h : TextTuples d t rest k m left rev ts) :
    layout0007 (textCfg d k m left rev) (goText t) = .ok (goText (joinWith '/' (ts ++ [rest]))) ↔ ∀ x ∈ ts.flatten, x.toNat < 128 := by
  obtain ⟨tc, rc, h1, h2, h3, h4, h5⟩ := C50_shape_partial (textCfg d k m left rev) (goText t) (by simpa [textCfg] using hk) (by simp [textCfg])
    (by cases left <;> simp [textCfg])
  have hrc : rc = goText rest := by
    have hr := h.after
    by_cases hd : d = []
    · subst hd
      rw [if_pos rfl] at hr
      rw [if_pos (by rfl)] at h4
      rw [h4, hr]
    · have hd' : (textCfg d k m left rev).delimiter ≠ [] := by
        intro e
        have := congrArg List.length e
        have h6 := (goText_length_iff d).1
        have h7 : (goText d).length = 0 := this
        exact hd (List.length_eq_zero_iff.1 (by omega))
      rw [if_neg hd] at hr
      rw [if_neg hd'] at h4
      exact afterLast_unique h4 (afterLast_text hd hr)
  subst hrc
  have n2 : tc.length = m := by have : (tc.length : Int) = m := h2; exact_mod_cast this
  have n3 : ∀ x ∈ tc, x.length = k := fun x hx => by have : (x.length : Int) = k := h3 x hx; exact_mod_cast this
  have L := flatten_len n3
  have L' := flatten_len h.size
  rw [n2] at L
  rw [h.number] at L'
  rw [h1, goText_joinWith]
  constructor
  · intro e
    have e := congrArg List.length (Except.ok.inj e)
    rw [join_total, join_total, flatten_goText, List.length_map, L, n2, h.number] at e
    exact (goText_length_iff _).2.1 (by omega)
  · intro ha
    have hsrc : tupleSource (textCfg d k m left rev) (goText rest) =
        goText (if rev then (padText left (k * m) rest).reverse else padText left (k * m) rest) := by
      have hz : zeroPad (textCfg d k m left rev) (goText rest) = goText (padText left (k * m) rest) := by
        have hlen : k * m - (goText rest).length = k * m - rest.length := by
          by_cases hl : k * m ≤ rest.length
          · have := (goText_length_iff rest).1; omega
          · obtain ⟨q, hq⟩ := h.source
            have hb : (if rev then (padText left (k * m) rest).reverse else padText left (k * m) rest).length = k * m := by
              split <;> simp [padText_length] <;> omega
            have hq' : q = [] := by
              have := congrArg List.length hq
              rw [hb, List.length_append, L', mul_comm] at this
              exact List.length_eq_zero_iff.1 (by omega)
            rw [hq', List.append_nil] at hq
            have hall : ∀ x ∈ rest, x.toNat < 128 := by
              intro x hx
              refine ha x ?_
              rw [hq]
              split <;> (unfold padText; split <;> simp [hx])
            rw [(goText_length_iff rest).2.2 hall]
        have hr : goText (List.replicate (k * m - rest.length) '0') = List.replicate (k * m - rest.length) '0' :=
          goText_ascii (fun x hx => by rw [List.eq_of_mem_replicate hx]; decide)
        have hn : ((k : Int) * (m : Int) - ((goText rest).length : Int)).toNat = k * m - rest.length := by
          rw [← hlen]
          have : ((k * m : Nat) : Int) = (k : Int) * m := by push_cast; rfl
          rw [← this]; omega
        unfold zeroPad padText textCfg
        simp only [hn]
        cases left <;> simp [goText_append, hr]
      unfold tupleSource
      rw [hz]
      cases rev
      · rfl
      · show reverseRunes _ = _
        rw [C194_reversed]; rfl
    rw [hsrc] at h5
    obtain ⟨q, hq⟩ := h.source
    rw [← hq, goText_append, goText_ascii ha] at h5
    have hf : tc.flatten = ts.flatten := by
      have hp : tc.flatten <+: ts.flatten :=
        List.prefix_of_prefix_length_le h5 ⟨_, rfl⟩ (by rw [L, L'])
      exact hp.eq_of_length (by rw [L, L'])
    have ht : tc = ts := flatten_same (by rw [n2, h.number]) n3 h.size hf
    have hm : ts.map goText = ts := by
      have : ∀ x ∈ ts, goText x = id x := fun x hx => goText_ascii (fun y hy => ha y (List.mem_flatten.2 ⟨x, hx, hy⟩))
      rw [List.map_congr_left this, List.map_id]
    rw [hm, ht]

/-- The full claim. -/
def C194_full : Prop := ∀ (d t rest : Str) (k m : Nat) (left rev : Bool) (ts : List Str), 0 < k → TextTuples d t rest k m left rev ts →
  layout0007 (textCfg d k m left rev) (goText t) = .ok (goText (joinWith '/' (ts ++ [rest])))

/-- The part of C194 that holds: ids that are ASCII after the prefix; the prefix and the delimiter may have other characters. -/
theorem C194_characters_partial {d t rest : Str} {k m : Nat} {left rev : Bool} {ts : List Str} (hk : 0 < k)
    (h : TextTuples d t rest k m left rev ts) (ha : ∀ x ∈ rest, x.toNat < 128) :
    layout0007 (textCfg d k m left rev) (goText t) = .ok (goText (joinWith '/' (ts ++ [rest]))) := by
  refine (C194_characters_iff hk h).2 (fun x hx => ?_)
  have hx := h.source.subset hx
  have : x ∈ padText left (k * m) rest := by
    split at hx
    · exact List.mem_reverse.1 hx
    · exact hx
  unfold padText at this
  have h0 : x ∈ List.replicate (k * m - rest.length) '0' → x.toNat < 128 := fun h => by rw [List.eq_of_mem_replicate h]; decide
  split at this
  · rcases List.mem_append.1 this with h | h
    · exact h0 h
    · exact ha x h
  · rcases List.mem_append.1 this with h | h
    · exact ha x h
    · exact h0 h

theorem afterLast_example : AfterLast "→".toList "Zürich→1296".toList "1296".toList := by
  have : layout0006 "→".toList "Zürich→1296".toList = "1296".toList := by decide
  rw [← this]; exact layout0006_spec _ _

example : TextTuples "→".toList "Zürich→1296".toList "1296".toList 3 2 true true ["692".toList, "100".toList] where
  after := by rw [if_neg (by decide)]; exact afterLast_example
  number := rfl
  size := by decide
  source := ⟨[], by decide⟩

theorem zurich_tuples : TextTuples [] "Zürich".toList "Zürich".toList 2 3 true false ["Zü".toList, "ri".toList, "ch".toList] where
  after := by simp
  number := rfl
  size := by decide
  source := ⟨[], by decide⟩

/-- C194 is violated: tuples are cut inside of characters. -/
theorem C194_full_fails : ¬ C194_full := by
  intro h
  have := (C194_characters_iff (by decide) zurich_tuples).1 (h _ _ _ _ _ _ _ _ (by decide) zurich_tuples)
  exact absurd (this 'ü' (by decide)) (by decide)

/-- The path is not even text then. -/
theorem C194_not_text : ∃ p, layout0007 (textCfg [] 2 3 true false) (goText "Zürich".toList) = .ok p ∧ ¬ ∃ t, p = goText t := by
  refine ⟨_, rfl, ?_⟩
  rintro ⟨t, ht⟩
  have h : reverseRunes (reverseRunes (goText t)) = goText t := by rw [C194_reversed, C194_reversed, List.reverse_reverse]
  rw [← ht] at h
  exact absurd h (by decide)

end Gocfl
