import Verif.Model.Json
import Verif.Model.StoreLemmas

/-!
# Lemmas about inventory files
-/

namespace Gocfl

/-! ## UTF-8 -/

theorem by8_toNat {n : Nat} (h : n < 256) : (by8 n).toNat = n := by
  show n % 256 = n
  exact Nat.mod_eq_of_lt h

theorem char_lt (c : Char) : c.toNat < 0x110000 := by
  rcases c.valid with h | ⟨_, h⟩
  · exact Nat.lt_trans h (by decide)
  · exact h

theorem char_valid (c : Char) : Nat.isValidChar c.toNat := c.valid

theorem char_ofNat (c : Char) : Char.ofNat c.toNat = c := Char.ofNat_toNat c

theorem ch_toNat {c : Char} (h : c.toNat < 256) : (ch c).toNat = c.toNat := by8_toNat h

/-- the first character is read back, with the number of its bytes -/
theorem decodeRune_utf8 (c : Char) (r : Bytes) : decodeRune (utf8Char c ++ r) = (c, (utf8Char c).length) := by
  have hlt := char_lt c
  have hv := char_valid c
  unfold utf8Char
  split
  · rename_i h
    simp only [List.cons_append, List.nil_append, decodeRune]
    rw [by8_toNat (by omega), if_pos h, char_ofNat]; rfl
  · rename_i h0
    split
    · rename_i h
      have e1 : (by8 (0xC0 + c.toNat / 64)).toNat = 0xC0 + c.toNat / 64 := by8_toNat (by omega)
      have e2 : (by8 (0x80 + c.toNat % 64)).toNat = 0x80 + c.toNat % 64 := by8_toNat (by omega)
      simp only [List.cons_append, List.nil_append, decodeRune, isCont8, e1, e2]
      have e : (0xC0 + c.toNat / 64 - 0xC0) * 64 + (0x80 + c.toNat % 64 - 0x80) = c.toNat := by omega
      rw [if_neg (by omega), if_neg (by omega), if_pos (by omega), e, char_ofNat, if_pos]
      · rfl
      · simp only [Bool.and_eq_true, decide_eq_true_eq]; omega
    · rename_i h1
      split
      · rename_i h
        have e1 : (by8 (0xE0 + c.toNat / 4096)).toNat = 0xE0 + c.toNat / 4096 := by8_toNat (by omega)
        have e2 : (by8 (0x80 + c.toNat / 64 % 64)).toNat = 0x80 + c.toNat / 64 % 64 := by8_toNat (by omega)
        have e3 : (by8 (0x80 + c.toNat % 64)).toNat = 0x80 + c.toNat % 64 := by8_toNat (by omega)
        simp only [List.cons_append, List.nil_append, decodeRune, isCont8, e1, e2, e3]
        have e : (0xE0 + c.toNat / 4096 - 0xE0) * 4096 + (0x80 + c.toNat / 64 % 64 - 0x80) * 64 +
            (0x80 + c.toNat % 64 - 0x80) = c.toNat := by omega
        rw [if_neg (by omega), if_neg (by omega), if_neg (by omega), if_pos (by omega), e, char_ofNat, if_pos]
        · rfl
        · simp only [Bool.and_eq_true, decide_eq_true_eq]
          refine ⟨⟨⟨⟨?_, ?_⟩, ?_, ?_⟩, hv⟩, ?_⟩ <;> omega
      · rename_i h2
        have e1 : (by8 (0xF0 + c.toNat / 262144)).toNat = 0xF0 + c.toNat / 262144 := by8_toNat (by omega)
        have e2 : (by8 (0x80 + c.toNat / 4096 % 64)).toNat = 0x80 + c.toNat / 4096 % 64 := by8_toNat (by omega)
        have e3 : (by8 (0x80 + c.toNat / 64 % 64)).toNat = 0x80 + c.toNat / 64 % 64 := by8_toNat (by omega)
        have e4 : (by8 (0x80 + c.toNat % 64)).toNat = 0x80 + c.toNat % 64 := by8_toNat (by omega)
        simp only [List.cons_append, List.nil_append, decodeRune, isCont8, e1, e2, e3, e4]
        have e : (0xF0 + c.toNat / 262144 - 0xF0) * 262144 + (0x80 + c.toNat / 4096 % 64 - 0x80) * 4096 +
            (0x80 + c.toNat / 64 % 64 - 0x80) * 64 + (0x80 + c.toNat % 64 - 0x80) = c.toNat := by omega
        rw [if_neg (by omega), if_neg (by omega), if_neg (by omega), if_neg (by omega), e, char_ofNat, if_pos]
        · rfl
        · simp only [Bool.and_eq_true, decide_eq_true_eq]
          refine ⟨⟨⟨⟨⟨?_, ?_, ?_⟩, ?_, ?_⟩, ?_, ?_⟩, hv⟩, ?_⟩ <;> omega

theorem utf8Char_cons (c : Char) : ∃ a r, utf8Char c = a :: r ∧ (a.toNat = c.toNat ∨ 0x80 ≤ a.toNat) ∧ (∀ b ∈ r, 0x80 ≤ b.toNat) ∧
    (c.toNat < 0x80 → a.toNat = c.toNat ∧ r = []) := by
  have hlt := char_lt c
  unfold utf8Char
  split
  · exact ⟨_, [], rfl, Or.inl (by8_toNat (by omega)), by simp, fun _ => ⟨by8_toNat (by omega), rfl⟩⟩
  · split
    · refine ⟨_, _, rfl, Or.inr (by rw [by8_toNat (by omega)]; omega), ?_, fun h => by omega⟩
      intro b hb
      simp only [List.mem_cons, List.not_mem_nil, or_false] at hb
      rcases hb with rfl; rw [by8_toNat (by omega)]; omega
    · split
      · refine ⟨_, _, rfl, Or.inr (by rw [by8_toNat (by omega)]; omega), ?_, fun h => by omega⟩
        intro b hb
        simp only [List.mem_cons, List.not_mem_nil, or_false] at hb
        rcases hb with rfl | rfl <;> (rw [by8_toNat (by omega)]; omega)
      · refine ⟨_, _, rfl, Or.inr (by rw [by8_toNat (by omega)]; omega), ?_, fun h => by omega⟩
        intro b hb
        simp only [List.mem_cons, List.not_mem_nil, or_false] at hb
        rcases hb with rfl | rfl | rfl <;> (rw [by8_toNat (by omega)]; omega)

theorem goRunesN_utf8 (s : Str) {n : Nat} (h : s.length ≤ n) : goRunesN n (utf8 s) = s := by
  induction s generalizing n with
  | nil => cases n <;> rfl
  | cons c s ih =>
    cases n with
    | zero => simp at h
    | succ n =>
      obtain ⟨a, r, hc, _⟩ := utf8Char_cons c
      have hd := decodeRune_utf8 c (utf8 s)
      have e : utf8 (c :: s) = utf8Char c ++ utf8 s := rfl
      rw [e]
      rw [hc] at hd ⊢
      simp only [List.cons_append] at hd ⊢
      unfold goRunesN
      rw [hd]
      simp only [List.length_cons, Nat.add_sub_cancel]
      rw [List.drop_left, ih (by simp at h; omega)]

theorem length_utf8 (s : Str) : s.length ≤ (utf8 s).length := by
  induction s with
  | nil => exact Nat.le_refl _
  | cons c s ih =>
    obtain ⟨a, r, hc, _⟩ := utf8Char_cons c
    have e : utf8 (c :: s) = utf8Char c ++ utf8 s := rfl
    rw [e, hc]
    simp only [List.cons_append, List.length_cons, List.length_append]
    omega

/-- the characters of the bytes of a string -/
theorem goRunes_utf8 (s : Str) : goRunes (utf8 s) = s := goRunesN_utf8 s (length_utf8 s)

/-! ## Strings -/

/-- the scanner goes over these bytes inside a string -/
def Passes (e : Bytes) : Prop := ∀ t, scanStr (e ++ t) = (scanStr t).map (fun x => (e ++ x.1, x.2))

theorem Passes.nil : Passes [] := by
  intro t
  simp only [List.nil_append]
  cases scanStr t <;> rfl

theorem Passes.append {a b : Bytes} (ha : Passes a) (hb : Passes b) : Passes (a ++ b) := by
  intro t
  rw [List.append_assoc, ha, hb]
  cases scanStr t with
  | none => rfl
  | some x => simp

theorem Passes.plain {b : UInt8} (h1 : b ≠ ch '"') (h2 : b ≠ ch '\\') (h3 : 0x20 ≤ b.toNat) : Passes [b] := by
  intro t
  simp only [List.cons_append, List.nil_append]
  conv_lhs => unfold scanStr
  rw [if_neg h1, if_neg h2, if_neg (by omega)]

theorem Passes.esc {e : UInt8} (h : isEsc e = true) : Passes [ch '\\', e] := by
  intro t
  simp only [List.cons_append, List.nil_append]
  conv_lhs => unfold scanStr
  rw [if_neg (by decide), if_pos rfl]
  simp only [h, if_true]

theorem isHexByte_hexByte {n : Nat} (h : n < 16) : isHexByte (hexByte n) = true := by
  unfold isHexByte hexByte
  split
  · rw [by8_toNat (by omega)]
    simp only [Bool.or_eq_true, Bool.and_eq_true, decide_eq_true_eq]; omega
  · rw [by8_toNat (by omega)]
    simp only [Bool.or_eq_true, Bool.and_eq_true, decide_eq_true_eq]; omega

theorem Passes.escU (n : Nat) : Passes (escU n) := by
  intro t
  unfold Gocfl.escU
  simp only [List.cons_append, List.nil_append]
  conv_lhs => unfold scanStr
  rw [if_neg (by decide), if_pos rfl]
  have h1 : isEsc (ch 'u') = false := by decide
  simp only [h1, Bool.false_eq_true, if_false, if_true]
  rw [isHexByte_hexByte (by omega), isHexByte_hexByte (by omega), isHexByte_hexByte (by omega), isHexByte_hexByte (by omega)]
  rfl

theorem ne_ch {b : UInt8} {c : Char} (h : c.toNat < 256) (hb : b.toNat ≠ c.toNat) : b ≠ ch c := by
  rintro rfl
  exact hb (ch_toNat h)

theorem char_eq_of_toNat {a b : Char} (h : a.toNat = b.toNat) : a = b := by
  rw [← char_ofNat a, ← char_ofNat b, h]

theorem passes_escChar (c : Char) : Passes (escChar c) := by
  unfold escChar
  split
  · rename_i h
    rcases h with rfl | rfl <;> exact .esc (by decide)
  · rename_i h0
    split
    · exact .esc (by decide)
    · split
      · exact .esc (by decide)
      · split
        · exact .esc (by decide)
        · split
          · exact .esc (by decide)
          · split
            · exact .esc (by decide)
            · split
              · exact .escU _
              · rename_i h1
                split
                · exact .escU _
                · obtain ⟨a, r, hc, ha, hr, ha'⟩ := utf8Char_cons c
                  have hbig : ∀ b : UInt8, 0x80 ≤ b.toNat → Passes [b] := fun b hb =>
                    .plain (ne_ch (by decide) (by have : '"'.toNat = 34 := rfl
                                                  omega))
                      (ne_ch (by decide) (by have : '\\'.toNat = 92 := rfl
                                             omega)) (by omega)
                  have hrest : Passes r := by
                    clear hc ha'
                    induction r with
                    | nil => exact .nil
                    | cons b r ih =>
                      exact (hbig b (hr b (by simp))).append (ih (fun x hx => hr x (by simp [hx])))
                  rw [hc]
                  refine Passes.append (a := [a]) ?_ hrest
                  rcases ha with ha | ha
                  · refine .plain (ne_ch (by decide) ?_) (ne_ch (by decide) ?_) ?_
                    · rw [ha]; intro h; exact h0 (Or.inl (char_eq_of_toNat h))
                    · rw [ha]; intro h; exact h0 (Or.inr (char_eq_of_toNat h))
                    · rw [ha]
                      have : ¬ c.toNat < 0x20 := fun h => h1 (Or.inl h)
                      omega
                  · exact hbig a ha

theorem passes_escStr (s : Str) : Passes (escStr s) := by
  induction s with
  | nil => exact .nil
  | cons c s ih => exact (passes_escChar c).append ih

/-- a string as it is written is read up to its end -/
theorem scanStr_escStr (s : Str) (r : Bytes) : scanStr (escStr s ++ ch '"' :: r) = some (escStr s, r) := by
  rw [passes_escStr]
  have : scanStr (ch '"' :: r) = some ([], r) := by
    conv_lhs => unfold scanStr
    rw [if_pos rfl]
  rw [this]; simp

theorem hexVal_hexByte {n : Nat} (h : n < 16) : hexVal (hexByte n) = n := by
  unfold hexVal hexByte
  split
  · rw [by8_toNat (by omega), if_pos (by omega)]; omega
  · rw [by8_toNat (by omega), if_neg (by omega), if_neg (by omega)]; omega

theorem getU4_escU {n : Nat} (h : n < 0x10000) (t : Bytes) : getU4 (escU n ++ t) = some n := by
  unfold escU
  simp only [List.cons_append, List.nil_append, getU4]
  rw [if_pos ⟨trivial, trivial⟩, hexVal_hexByte (by omega), hexVal_hexByte (by omega), hexVal_hexByte (by omega), hexVal_hexByte (by omega)]
  congr 1; omega

theorem getU4_esc {e : UInt8} (h : e ≠ ch 'u') (t : Bytes) : getU4 (ch '\\' :: e :: t) = none := by
  unfold getU4
  split
  · rename_i heq
    rw [if_neg]
    rintro ⟨_, h2⟩
    simp only [List.cons.injEq] at heq
    exact h (heq.2.1.trans h2)
  · rfl

/-- one character is read back -/
theorem unescN_escChar (c : Char) (n : Nat) (t : Bytes) : unescN (n + 1) (escChar c ++ t) = c :: unescN n t := by
  have hesc : ∀ e : UInt8, e ≠ ch 'u' → unescN (n + 1) (ch '\\' :: e :: t) = escVal e :: unescN n t := by
    intro e he
    conv_lhs => unfold unescN
    rw [if_pos rfl, getU4_esc he]
    simp
  have hU : ∀ k : Nat, k < 0xD800 → k = c.toNat → unescN (n + 1) (escU k ++ t) = c :: unescN n t := by
    intro k hk hkc
    have hg := getU4_escU (n := k) (by omega) t
    unfold escU at hg ⊢
    simp only [List.cons_append, List.nil_append] at hg ⊢
    conv_lhs => unfold unescN
    rw [if_pos rfl, hg]
    have hs : isSurrogate k = false := by
      unfold isSurrogate
      simp only [Bool.and_eq_false_iff, decide_eq_false_iff_not]; omega
    simp only [hs, Bool.false_eq_true, if_false]
    rw [hkc, char_ofNat]; simp
  unfold escChar
  split
  · rename_i h
    rcases h with rfl | rfl
    · exact hesc _ (by decide)
    · exact hesc _ (by decide)
  · rename_i h0
    split
    · rename_i h
      rw [show ([ch '\\', ch 'b'] : Bytes) ++ t = ch '\\' :: ch 'b' :: t from rfl, hesc _ (by decide)]
      congr 1; exact char_eq_of_toNat (h ▸ rfl)
    · split
      · rename_i h
        rw [show ([ch '\\', ch 'f'] : Bytes) ++ t = ch '\\' :: ch 'f' :: t from rfl, hesc _ (by decide)]
        congr 1; exact char_eq_of_toNat (h ▸ rfl)
      · split
        · rename_i h
          rw [show ([ch '\\', ch 'n'] : Bytes) ++ t = ch '\\' :: ch 'n' :: t from rfl, hesc _ (by decide)]
          congr 1; exact char_eq_of_toNat (h ▸ rfl)
        · split
          · rename_i h
            rw [show ([ch '\\', ch 'r'] : Bytes) ++ t = ch '\\' :: ch 'r' :: t from rfl, hesc _ (by decide)]
            congr 1; exact char_eq_of_toNat (h ▸ rfl)
          · split
            · rename_i h
              rw [show ([ch '\\', ch 't'] : Bytes) ++ t = ch '\\' :: ch 't' :: t from rfl, hesc _ (by decide)]
              congr 1; exact char_eq_of_toNat (h ▸ rfl)
            · split
              · rename_i h
                refine hU _ ?_ rfl
                rcases h with h | rfl | rfl | rfl
                · omega
                · decide
                · decide
                · decide
              · split
                · rename_i h
                  exact hU _ (by omega) rfl
                · obtain ⟨a, r, hc, ha, hr, ha'⟩ := utf8Char_cons c
                  have hd := decodeRune_utf8 c t
                  rw [hc] at hd ⊢
                  simp only [List.cons_append] at hd ⊢
                  conv_lhs => unfold unescN
                  rw [if_neg, hd]
                  · simp only [List.length_cons, Nat.add_sub_cancel, List.drop_left]
                  · refine ne_ch (by decide) ?_
                    have h92 : '\\'.toNat = 92 := rfl
                    rcases ha with ha | ha
                    · rw [ha]; intro h; exact h0 (Or.inr (char_eq_of_toNat h))
                    · omega

theorem escChar_ne_nil (c : Char) : 1 ≤ (escChar c).length := by
  have h := unescN_escChar c 0 []
  cases he : escChar c with
  | nil => rw [he] at h; cases h
  | cons a l => simp

theorem unescN_escStr (s : Str) {n : Nat} (h : s.length ≤ n) : unescN n (escStr s) = s := by
  induction s generalizing n with
  | nil => cases n <;> rfl
  | cons c s ih =>
    cases n with
    | zero => simp at h
    | succ n =>
      have e : escStr (c :: s) = escChar c ++ escStr s := rfl
      rw [e, unescN_escChar, ih (by simp at h; omega)]

theorem length_escStr (s : Str) : s.length ≤ (escStr s).length := by
  induction s with
  | nil => exact Nat.le_refl _
  | cons c s ih =>
    have e : escStr (c :: s) = escChar c ++ escStr s := rfl
    have := escChar_ne_nil c
    rw [e]; simp only [List.length_append, List.length_cons]; omega

/-- every string is read as it was written -/
theorem unesc_escStr (s : Str) : unesc (escStr s) = s := unescN_escStr s (length_escStr s)

/-! ## The text that is written has the tree that is meant -/

/-- the text of a value -/
structure Reads (b : Bytes) (v : JV) : Prop where
  start : ∃ a t, b = a :: t ∧ isWs a = false ∧ a ≠ ch ']' ∧ a ≠ ch '}'
  scan : ∀ n r, b.length ≤ n → scanVal n (b ++ r) = some (v, r)

theorem skipWs_cons {a : UInt8} {t : Bytes} (h : isWs a = false) : skipWs (a :: t) = a :: t := by
  unfold skipWs
  rw [List.dropWhile_cons, if_neg (by rw [h]; decide)]

theorem skipWs_spaces (n : Nat) (b : Bytes) : skipWs (List.replicate n (ch ' ') ++ b) = skipWs b := by
  induction n with
  | zero => rfl
  | succ n ih =>
    rw [List.replicate_succ, List.cons_append]
    unfold skipWs at ih ⊢
    rw [List.dropWhile_cons, if_pos (by decide), ih]

theorem skipWs_nl (d : Nat) (b : Bytes) : skipWs (nl d ++ b) = skipWs b := by
  unfold nl
  rw [List.cons_append]
  have := skipWs_spaces (3 * d) b
  unfold skipWs at this ⊢
  rw [List.dropWhile_cons, if_pos (by decide), this]

theorem Reads.skip {b : Bytes} {v : JV} (h : Reads b v) (r : Bytes) : skipWs (b ++ r) = b ++ r := by
  obtain ⟨a, t, rfl, h1, _⟩ := h.start
  exact skipWs_cons h1

theorem reads_qStr (s : Str) : Reads (qStr s) (.str (escStr s)) where
  start := ⟨_, _, rfl, by decide, by decide, by decide⟩
  scan := by
    intro n r hn
    unfold qStr at hn ⊢
    cases n with
    | zero => simp at hn
    | succ n =>
      simp only [List.cons_append, List.append_assoc, List.nil_append]
      unfold scanVal
      rw [if_neg (by decide), if_neg (by decide), if_pos rfl, scanStr_escStr]
      rfl

theorem length_nl (d : Nat) : 1 ≤ (nl d).length := by
  unfold nl; simp

/-- the elements of an array -/
theorem scan_elems (d e : Nat) {l : List Bytes} {vs : List JV} (h : List.Forall₂ Reads l vs) (hl : l ≠ []) (n : Nat) (r : Bytes)
    (hn : (lines d l).length ≤ n) : scanElems n (skipWs (lines d l ++ (nl e ++ ch ']' :: r))) = some (vs, r) := by
  induction h generalizing n with
  | nil => exact absurd rfl hl
  | @cons x v l vs hx hr ih =>
    cases l with
    | nil =>
      cases hr
      simp only [lines, List.length_append] at hn ⊢
      have := length_nl d
      rw [List.append_assoc, skipWs_nl, hx.skip]
      cases n with
      | zero => omega
      | succ n =>
        unfold scanElems
        rw [hx.scan n _ (by omega)]
        simp only [skipWs_nl]
        rw [skipWs_cons (by decide)]
        simp only [if_true]
    | cons y l =>
      cases hr with
      | @cons _ v' _ vs' hy hr' =>
      simp only [lines, List.length_append, List.length_cons] at hn ih ⊢
      have := length_nl d
      rw [List.append_assoc, skipWs_nl, List.append_assoc, hx.skip]
      cases n with
      | zero => omega
      | succ n =>
        unfold scanElems
        rw [hx.scan n _ (by omega)]
        simp only [List.cons_append]
        rw [skipWs_cons (by decide)]
        simp only []
        rw [if_neg (by decide), if_pos trivial, ih (by simp) n (by omega)]
        rfl

theorem reads_arr (d : Nat) {l : List Bytes} {vs : List JV} (h : List.Forall₂ Reads l vs) : Reads (arrText d l) (.arr vs) where
  start := by
    unfold arrText
    split
    · exact ⟨_, _, rfl, by decide, by decide, by decide⟩
    · exact ⟨_, _, rfl, by decide, by decide, by decide⟩
  scan := by
    intro n r hn
    unfold arrText at hn ⊢
    split
    · rename_i h0
      subst h0; cases h
      cases n with
      | zero => simp at hn
      | succ n =>
        simp only [List.cons_append, List.nil_append]
        unfold scanVal
        rw [if_neg (by decide), if_pos rfl, skipWs_cons (by decide)]
        simp only [if_true]
    · rename_i h0
      rw [if_neg h0] at hn
      cases n with
      | zero => simp at hn
      | succ n =>
        simp only [List.cons_append, List.append_assoc, List.nil_append, List.length_cons, List.length_append] at hn ⊢
        have he := scan_elems (d + 1) d h h0 n r (by omega)
        have hne : ∃ a t, skipWs (lines (d + 1) l ++ (nl d ++ ch ']' :: r)) = a :: t ∧ a ≠ ch ']' := by
          cases h with
          | nil => exact absurd rfl h0
          | @cons x v l vs hx hr =>
            obtain ⟨a, t, rfl, h1, h2, _⟩ := hx.start
            cases l with
            | nil => simp only [lines, List.append_assoc, skipWs_nl, List.cons_append]; exact ⟨a, _, skipWs_cons h1, h2⟩
            | cons y l => simp only [lines, List.append_assoc, skipWs_nl, List.cons_append]; exact ⟨a, _, skipWs_cons h1, h2⟩
        obtain ⟨a, t, h1, h2⟩ := hne
        rw [h1] at he
        unfold scanVal
        rw [if_neg (by decide), if_pos rfl, h1]
        simp only [if_neg h2, he]
        rfl

/-- a member and what it means -/
def ReadsMember (e : Str × Bytes) (f : Bytes × JV) : Prop := f.1 = escStr e.1 ∧ Reads e.2 f.2

theorem scan_members (d e : Nat) {l : List (Str × Bytes)} {vs : List (Bytes × JV)} (h : List.Forall₂ ReadsMember l vs) (hl : l ≠ [])
    (n : Nat) (r : Bytes) (hn : (lines d (l.map (fun e => member e.1 e.2))).length ≤ n) :
    scanMembers n (skipWs (lines d (l.map (fun e => member e.1 e.2)) ++ (nl e ++ ch '}' :: r))) = some (vs, r) := by
  have hq : ∀ k v t, skipWs (member k v ++ t) = ch '"' :: (escStr k ++ ch '"' :: ch ':' :: ch ' ' :: (v ++ t)) := by
    intro k v t
    unfold member qStr
    simp only [List.cons_append, List.append_assoc, List.nil_append]
    exact skipWs_cons (by decide)
  have hsp : ∀ t, skipWs (ch ' ' :: t) = skipWs t := fun t => skipWs_spaces 1 t
  induction h generalizing n with
  | nil => exact absurd rfl hl
  | @cons x v l vs hx hr ih =>
    obtain ⟨k, x⟩ := x
    obtain ⟨k', v⟩ := v
    obtain ⟨hk, hx⟩ := hx
    simp only at hk hx
    subst hk
    have hlen : x.length + 1 ≤ (member k x).length := by
      unfold member; simp only [List.length_append, List.length_cons]; omega
    cases l with
    | nil =>
      cases hr
      simp only [lines, List.map, List.length_append] at hn ⊢
      have := length_nl d
      rw [List.append_assoc, skipWs_nl, hq]
      cases n with
      | zero => omega
      | succ n =>
        unfold scanMembers
        rw [if_pos rfl, scanStr_escStr]
        simp only []
        rw [skipWs_cons (by decide)]
        simp only [if_true]
        rw [hsp, hx.skip, hx.scan n _ (by omega)]
        simp only [skipWs_nl]
        rw [skipWs_cons (by decide)]
        simp only [if_true]
    | cons y l =>
      cases hr with
      | @cons _ v' _ vs' hy hr' =>
      simp only [lines, List.map, List.length_append, List.length_cons] at hn ih ⊢
      have := length_nl d
      rw [List.append_assoc, skipWs_nl, List.append_assoc, hq]
      cases n with
      | zero => omega
      | succ n =>
        unfold scanMembers
        rw [if_pos rfl, scanStr_escStr]
        simp only []
        rw [skipWs_cons (by decide)]
        simp only [if_true]
        rw [hsp, hx.skip, hx.scan n _ (by omega)]
        simp only [List.cons_append]
        rw [skipWs_cons (by decide)]
        simp only []
        rw [if_neg (by decide), if_pos trivial, ih (by simp) n (by omega)]
        rfl

theorem reads_obj (d : Nat) {l : List (Str × Bytes)} {vs : List (Bytes × JV)} (h : List.Forall₂ ReadsMember l vs) :
    Reads (objText d l) (.obj vs) where
  start := by
    unfold objText
    split
    · exact ⟨_, _, rfl, by decide, by decide, by decide⟩
    · exact ⟨_, _, rfl, by decide, by decide, by decide⟩
  scan := by
    intro n r hn
    unfold objText at hn ⊢
    split
    · rename_i h0
      subst h0; cases h
      cases n with
      | zero => simp at hn
      | succ n =>
        simp only [List.cons_append, List.nil_append]
        unfold scanVal
        rw [if_pos rfl, skipWs_cons (by decide)]
        simp only [if_true]
    · rename_i h0
      rw [if_neg h0] at hn
      cases n with
      | zero => simp at hn
      | succ n =>
        simp only [List.cons_append, List.append_assoc, List.nil_append, List.length_cons, List.length_append] at hn ⊢
        have he := scan_members (d + 1) d h h0 n r (by omega)
        have hne : ∃ a t, skipWs (lines (d + 1) (l.map (fun e => member e.1 e.2)) ++ (nl d ++ ch '}' :: r)) = a :: t ∧ a ≠ ch '}' := by
          cases h with
          | nil => exact absurd rfl h0
          | @cons x v l vs hx hr =>
            cases l with
            | nil =>
              simp only [lines, List.map, List.append_assoc, skipWs_nl, member, qStr, List.cons_append]
              exact ⟨_, _, skipWs_cons (by decide), by decide⟩
            | cons y l =>
              simp only [lines, List.map, List.append_assoc, skipWs_nl, member, qStr, List.cons_append]
              exact ⟨_, _, skipWs_cons (by decide), by decide⟩
        obtain ⟨a, t, h1, h2⟩ := hne
        rw [h1] at he
        unfold scanVal
        rw [if_pos rfl, h1]
        simp only [if_neg h2, he]
        rfl

theorem Reads.parse {b : Bytes} {v : JV} (h : Reads b v) : parseJson b = some v := by
  have h1 := h.skip []
  have h2 := h.scan b.length [] (Nat.le_refl _)
  rw [List.append_nil] at h1 h2
  unfold parseJson
  rw [h1, h2]
  rfl

/-! ## More text changes nothing that has been read -/

theorem scanStr_append {b x r : Bytes} (h : scanStr b = some (x, r)) (q : Bytes) : scanStr (b ++ q) = some (x, r ++ q) := by
  induction hn : b.length using Nat.strongRecOn generalizing b x r with
  | _ n ih =>
    have step : ∀ {b' : Bytes} {g : Bytes × Bytes → Bytes × Bytes} {x r}, b'.length < n → (∀ y, (g y).2 = y.2) → (∀ y z, (g (y, z)).1 = (g (y, z ++ q)).1) →
        (scanStr b').map g = some (x, r) → (scanStr (b' ++ q)).map g = some (x, r ++ q) := by
      intro b' g x r hlt hg1 hg2 hm
      rw [Option.map_eq_some_iff] at hm
      obtain ⟨⟨x', r'⟩, h1, h2⟩ := hm
      rw [ih _ hlt h1 rfl, Option.map_some]
      have e1 := hg1 (x', r')
      have e2 := hg1 (x', r' ++ q)
      have e3 := hg2 x' r'
      rw [h2] at e1 e3
      simp only at e1 e2 e3
      rw [show g (x', r' ++ q) = ((g (x', r' ++ q)).1, (g (x', r' ++ q)).2) from rfl, e2, ← e3, e1]
    cases b with
    | nil => cases h
    | cons a t =>
      simp only [List.cons_append]
      unfold scanStr at h ⊢
      split at h
      · rename_i h1; rw [if_pos h1]; cases h; rfl
      · rename_i h1
        rw [if_neg h1]
        split at h
        · rename_i h2
          rw [if_pos h2]
          cases t with
          | nil => cases h
          | cons e t =>
            simp only [List.cons_append] at h ⊢
            split at h
            · rename_i h3
              rw [if_pos h3]
              exact step (by simp at hn; omega) (fun _ => rfl) (fun _ _ => rfl) h
            · rename_i h3
              rw [if_neg h3]
              split at h
              · rename_i h4
                rw [if_pos h4]
                split at h
                · rename_i h1 h2 h3 h4 r2
                  simp only [List.cons_append]
                  split at h
                  · rename_i h5
                    rw [if_pos h5]
                    exact step (by simp at hn; omega) (fun _ => rfl) (fun _ _ => rfl) h
                  · cases h
                · cases h
              · cases h
        · rename_i h2
          rw [if_neg h2]
          split at h
          · cases h
          · rename_i h3
            rw [if_neg h3]
            exact step (by simp at hn; omega) (fun _ => rfl) (fun _ _ => rfl) h

theorem skipWs_append {r r1 : Bytes} {x : UInt8} (h : skipWs r = x :: r1) (q : Bytes) : skipWs (r ++ q) = x :: (r1 ++ q) := by
  induction r with
  | nil => cases h
  | cons a t ih =>
    unfold skipWs at h ih ⊢
    rw [List.cons_append, List.dropWhile_cons]
    rw [List.dropWhile_cons] at h
    split at h
    · rename_i ha; rw [if_pos ha]; exact ih h
    · rename_i ha; rw [if_neg ha]; cases h; rfl

theorem scanWord_append {w : Str} {v v' : JV} {b r : Bytes} (h : scanWord w v b = some (v', r)) (q : Bytes) :
    scanWord w v (b ++ q) = some (v', r ++ q) := by
  unfold scanWord at h ⊢
  split at h
  · rename_i hw
    cases h
    have hlen : w.length ≤ b.length := by
      have := congrArg List.length hw
      simp only [List.length_take, List.length_map] at this
      omega
    rw [List.take_append_of_le_length hlen, if_pos hw, List.drop_append_of_le_length hlen]
  · cases h

theorem takeWhile_append_of_drop {p : UInt8 → Bool} {b : Bytes} (h : b.dropWhile p ≠ []) (q : Bytes) :
    (b ++ q).takeWhile p = b.takeWhile p ∧ (b ++ q).dropWhile p = b.dropWhile p ++ q := by
  induction b with
  | nil => exact absurd rfl h
  | cons a t ih =>
    rw [List.cons_append, List.takeWhile_cons, List.takeWhile_cons, List.dropWhile_cons, List.dropWhile_cons]
    rw [List.dropWhile_cons] at h
    split
    · rename_i ha
      rw [if_pos ha] at h
      have := ih h
      exact ⟨by rw [this.1], this.2⟩
    · exact ⟨rfl, rfl⟩

theorem scanNum_append {v : JV} {b r : Bytes} (h : scanNum b = some (v, r)) (hr : r ≠ []) (q : Bytes) :
    scanNum (b ++ q) = some (v, r ++ q) := by
  unfold scanNum at h ⊢
  split at h
  · rename_i hb
    cases h
    obtain ⟨h1, h2⟩ := takeWhile_append_of_drop hr q
    rw [h1, h2, if_pos hb]
  · cases h

/-- The value, and what follows it, stay the same if more text follows; a number must have ended. -/
theorem scan_append (n : Nat) :
    (∀ b v r, scanVal n b = some (v, r) → (r ≠ [] ∨ ∀ x, v ≠ .num x) → ∀ m q, n ≤ m → scanVal m (b ++ q) = some (v, r ++ q)) ∧
    (∀ b l r, scanElems n b = some (l, r) → ∀ m q, n ≤ m → scanElems m (b ++ q) = some (l, r ++ q)) ∧
    (∀ b l r, scanMembers n b = some (l, r) → ∀ m q, n ≤ m → scanMembers m (b ++ q) = some (l, r ++ q)) := by
  induction n with
  | zero =>
    refine ⟨?_, ?_, ?_⟩
    · intro b v r h; unfold scanVal at h; cases h
    · intro b v r h; unfold scanElems at h; cases h
    · intro b v r h; unfold scanMembers at h; cases h
  | succ n ih =>
    obtain ⟨ihv, ihe, ihm⟩ := ih
    have succ : ∀ m, n + 1 ≤ m → ∃ k, m = k + 1 ∧ n ≤ k := fun m h => ⟨m - 1, by omega, by omega⟩
    refine ⟨?_, ?_, ?_⟩
    · intro b v r h hv m q hm
      obtain ⟨k, rfl, hk⟩ := succ m hm
      cases b with
      | nil => unfold scanVal at h; cases h
      | cons a t =>
        rw [List.cons_append]
        unfold scanVal at h ⊢
        split at h
        · rename_i h1
          rw [if_pos h1]
          split at h
          · cases h
          · rename_i x r1 hs
            rw [skipWs_append hs]
            simp only []
            split at h
            · rename_i h2; rw [if_pos h2]; cases h; rfl
            · rename_i h2
              rw [if_neg h2]
              rw [Option.map_eq_some_iff] at h
              obtain ⟨⟨l, r'⟩, h3, h4⟩ := h
              cases h4
              have := ihm _ _ _ h3 k q hk
              rw [List.cons_append] at this
              rw [this]; rfl
        · rename_i h1
          rw [if_neg h1]
          split at h
          · rename_i h1
            rw [if_pos h1]
            split at h
            · cases h
            · rename_i x r1 hs
              rw [skipWs_append hs]
              simp only []
              split at h
              · rename_i h2; rw [if_pos h2]; cases h; rfl
              · rename_i h2
                rw [if_neg h2]
                rw [Option.map_eq_some_iff] at h
                obtain ⟨⟨l, r'⟩, h3, h4⟩ := h
                cases h4
                have := ihe _ _ _ h3 k q hk
                rw [List.cons_append] at this
                rw [this]; rfl
          · rename_i h1
            rw [if_neg h1]
            split at h
            · rename_i h1
              rw [if_pos h1]
              rw [Option.map_eq_some_iff] at h
              obtain ⟨⟨l, r'⟩, h3, h4⟩ := h
              cases h4
              rw [scanStr_append h3]; rfl
            · rename_i h1
              rw [if_neg h1]
              split at h
              · rename_i h1
                rw [if_pos h1, ← List.cons_append]
                exact scanWord_append h q
              · rename_i h1
                rw [if_neg h1]
                split at h
                · rename_i h1
                  rw [if_pos h1, ← List.cons_append]
                  exact scanWord_append h q
                · rename_i h1
                  rw [if_neg h1]
                  split at h
                  · rename_i h1
                    rw [if_pos h1, ← List.cons_append]
                    exact scanWord_append h q
                  · rename_i h1
                    rw [if_neg h1, ← List.cons_append]
                    refine scanNum_append h ?_ q
                    rcases hv with hv | hv
                    · exact hv
                    · unfold scanNum at h
                      split at h
                      · cases h; exact absurd rfl (hv _)
                      · cases h
    · intro b l r h m q hm
      obtain ⟨k, rfl, hk⟩ := succ m hm
      unfold scanElems at h ⊢
      split at h
      · cases h
      · rename_i v r0 hv
        split at h
        · cases h
        · rename_i x r1 hs
          have hr0 : r0 ≠ [] := by rintro rfl; cases hs
          rw [ihv _ _ _ hv (Or.inl hr0) k q hk]
          simp only []
          rw [skipWs_append hs]
          simp only []
          split at h
          · rename_i h2; rw [if_pos h2]; cases h; rfl
          · rename_i h2
            rw [if_neg h2]
            split at h
            · rename_i h3
              rw [if_pos h3]
              rw [Option.map_eq_some_iff] at h
              obtain ⟨⟨l', r'⟩, h4, h5⟩ := h
              cases h5
              have hs1 : skipWs (r1 ++ q) = skipWs r1 ++ q := by
                cases hsr : skipWs r1 with
                | nil =>
                  rw [hsr] at h4
                  cases n with
                  | zero => unfold scanElems at h4; cases h4
                  | succ n =>
                    unfold scanElems at h4
                    have : scanVal n [] = none := by cases n <;> (unfold scanVal; rfl)
                    rw [this] at h4; cases h4
                | cons y r2 => exact skipWs_append hsr q
              rw [hs1, ihe _ _ _ h4 k q hk]; rfl
            · cases h
    · intro b l r h m q hm
      obtain ⟨k, rfl, hk⟩ := succ m hm
      cases b with
      | nil => unfold scanMembers at h; cases h
      | cons a t =>
        rw [List.cons_append]
        unfold scanMembers at h ⊢
        split at h
        · rename_i h1
          rw [if_pos h1]
          split at h
          · cases h
          · rename_i key r0 hkey
            rw [scanStr_append hkey]
            simp only []
            split at h
            · cases h
            · rename_i c r1 hs
              rw [skipWs_append hs]
              simp only []
              split at h
              · rename_i h2
                rw [if_pos h2]
                split at h
                · cases h
                · rename_i v r2 hv
                  have hs1 : skipWs (r1 ++ q) = skipWs r1 ++ q := by
                    cases hsr : skipWs r1 with
                    | nil =>
                      rw [hsr] at hv
                      have : scanVal n [] = none := by cases n <;> (unfold scanVal; rfl)
                      rw [this] at hv; cases hv
                    | cons y r2 => exact skipWs_append hsr q
                  split at h
                  · cases h
                  · rename_i x r3 hs2
                    have hr2 : r2 ≠ [] := by rintro rfl; cases hs2
                    rw [hs1, ihv _ _ _ hv (Or.inl hr2) k q hk]
                    simp only []
                    rw [skipWs_append hs2]
                    simp only []
                    split at h
                    · rename_i h2; rw [if_pos h2]; cases h; rfl
                    · rename_i h2
                      rw [if_neg h2]
                      split at h
                      · rename_i h3
                        rw [if_pos h3]
                        rw [Option.map_eq_some_iff] at h
                        obtain ⟨⟨l', r'⟩, h4, h5⟩ := h
                        cases h5
                        have hs3 : skipWs (r3 ++ q) = skipWs r3 ++ q := by
                          cases hsr : skipWs r3 with
                          | nil =>
                            rw [hsr] at h4
                            have : scanMembers n [] = none := by cases n <;> (unfold scanMembers; rfl)
                            rw [this] at h4; cases h4
                          | cons y r2 => exact skipWs_append hsr q
                        rw [hs3, ihm _ _ _ h4 k q hk]; rfl
                      · cases h
              · cases h
        · cases h

end Gocfl
