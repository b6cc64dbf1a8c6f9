import Verif.Spec

/-! # Lemmas about version names -/

namespace Gocfl

theorem fmtInt_natCast (n : Nat) : fmtInt (n : Int) = fmtNat n := rfl

/-- A version name is `v`, some zeros and the decimal number. -/
theorem verName_shape (pad : Int) (n : Nat) :
    ∃ k, verName pad (n : Int) = 'v' :: (List.replicate k '0' ++ fmtNat n) := by
  unfold verName
  split
  · exact ⟨0, by simp [fmtInt_natCast]⟩
  · refine ⟨pad.toNat - (fmtNat n).length + 1, ?_⟩
    show 'v' :: '0' :: (List.replicate _ '0' ++ fmtNat n) = _
    rw [List.replicate_succ]; rfl

theorem verName_unpadded {pad : Int} (h : pad ≤ 0) (n : Nat) :
    verName pad (n : Int) = 'v' :: fmtNat n := by
  simp [verName, h, fmtInt_natCast]

theorem verName_ne_nil (pad : Int) (n : Int) : verName pad n ≠ [] := by
  unfold verName; split <;> simp

theorem all_isDigit_zeros_append (k n : Nat) :
    (List.replicate k '0' ++ fmtNat n).all Char.isDigit = true := by
  rw [List.all_append, fmtNat_all_digits, Bool.and_true, List.all_eq_true]
  intro c hc; rw [List.eq_of_mem_replicate hc]; decide

theorem digitsVal_zeros_append (k n : Nat) : digitsVal (List.replicate k '0' ++ fmtNat n) = n := by
  unfold digitsVal
  rw [Nat.ofDigitChars_append, Nat.ofDigitChars_replicate_zero, Nat.mul_zero]
  exact digitsVal_fmtNat n

theorem headNumber_verName (pad : Int) {n : Nat} (hn : 0 < n) :
    headNumber (verName pad (n : Int)) = some (n : Int) := by
  obtain ⟨k, hk⟩ := verName_shape pad n
  unfold headNumber
  rw [hk]
  have h1 : toLower ('v' :: (List.replicate k '0' ++ fmtNat n)) =
      'v' :: (List.replicate k '0' ++ fmtNat n) := by
    have := toLower_digits (all_isDigit_zeros_append k n)
    unfold toLower at this ⊢
    rw [List.map_cons, this]; rfl
  have h2 : trimLeft ('v' :: (List.replicate k '0' ++ fmtNat n)) "v0".toList =
      trimLeft (List.replicate k '0' ++ fmtNat n) "v0".toList := by
    rfl
  rw [h1, h2, trimLeft_zeros_fmtNat k hn, atoi_fmtNat]

theorem vNumber_verName (pad : Int) (n : Nat) : vNumber (verName pad (n : Int)) = some (n : Int) := by
  obtain ⟨k, hk⟩ := verName_shape pad n
  rw [hk]
  have hd : isDigits (List.replicate k '0' ++ fmtNat n) = true := by
    simp only [isDigits, Bool.and_eq_true, all_isDigit_zeros_append, and_true]
    cases h : List.replicate k '0' ++ fmtNat n with
    | nil => exact absurd (List.append_eq_nil_iff.1 h).2 (fmtNat_ne_nil n)
    | cons => rfl
  simp [vNumber, hd, digitsVal_zeros_append]

theorem verName_inj {pad pad' : Int} {a b : Nat} (h : verName pad (a : Int) = verName pad' (b : Int)) :
    a = b := by
  have ha := vNumber_verName pad a
  rw [h, vNumber_verName] at ha
  have := Option.some.inj ha
  omega

/-- Names of `1..n` are pairwise distinct. -/
theorem names_nodup (pad : Int) (n : Nat) :
    ((List.range n).map (fun k => verName pad ((k + 1 : Nat) : Int))).Nodup := by
  refine List.Nodup.map ?_ List.nodup_range
  intro a b h
  have := verName_inj h
  omega

theorem GapFree.nodup {inv : Inv} {n : Nat} (h : GapFree inv n) : (mkeys inv.versions).Nodup :=
  h.1.nodup_iff.2 (names_nodup _ _)

theorem GapFree.mem_keys {inv : Inv} {n : Nat} (h : GapFree inv n) {v : Str} :
    v ∈ mkeys inv.versions ↔ ∃ k : Nat, 1 ≤ k ∧ k ≤ n ∧ v = verName inv.paddingLength (k : Int) := by
  rw [h.1.mem_iff, List.mem_map]
  constructor
  · rintro ⟨k, hk, rfl⟩
    exact ⟨k + 1, by omega, by have := List.mem_range.1 hk; omega, rfl⟩
  · rintro ⟨k, h1, h2, rfl⟩
    exact ⟨k - 1, List.mem_range.2 (by omega), by congr 2; omega⟩

theorem GapFree.head_eq {inv : Inv} {n : Nat} (h : GapFree inv n) (hn : 0 < n) :
    inv.head = verName inv.paddingLength (n : Int) := by
  have := h.2; rwa [if_neg (by omega)] at this

theorem GapFree.head_mem {inv : Inv} {n : Nat} (h : GapFree inv n) (hn : 0 < n) :
    inv.head ∈ mkeys inv.versions :=
  h.mem_keys.2 ⟨n, hn, le_refl _, h.head_eq hn⟩

theorem GapFree.next_not_mem {inv : Inv} {n : Nat} (h : GapFree inv n) :
    verName inv.paddingLength ((n + 1 : Nat) : Int) ∉ mkeys inv.versions := by
  intro hm
  obtain ⟨k, _, h2, h3⟩ := h.mem_keys.1 hm
  have := verName_inj h3; omega

theorem GapFree.head_nil_iff {inv : Inv} {n : Nat} (h : GapFree inv n) : inv.head = [] ↔ n = 0 := by
  constructor
  · intro hh
    by_contra hn
    have := h.head_eq (Nat.pos_of_ne_zero hn)
    rw [hh] at this; exact verName_ne_nil _ _ this.symm
  · intro hn; have := h.2; rwa [if_pos hn] at this

theorem GapFree.head_version {inv : Inv} {n : Nat} (h : GapFree inv n) (hn : 0 < n) :
    ∃ ver, mget inv.versions inv.head = some ver := by
  have := mget_isSome_iff.2 (h.head_mem hn)
  exact Option.isSome_iff_exists.1 this

end Gocfl
