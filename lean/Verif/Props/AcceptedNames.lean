import Verif.Props.NoFalseAlarm

/-! # C182: the names of the versions of an object that validates -/

namespace Gocfl

/-! ## Numbers and digits -/

theorem digitsVal_cons (c : Char) (r : Str) : digitsVal (c :: r) = 10 ^ r.length * (c.toNat - 48) + digitsVal r := by
  unfold digitsVal
  rw [Nat.ofDigitChars_cons, Nat.ofDigitChars_eq_ofDigitChars_zero]
  simp

theorem isDigit_bounds {c : Char} (h : c.isDigit = true) : 48 ≤ c.toNat ∧ c.toNat ≤ 57 := by
  unfold Char.isDigit at h
  simp only [Bool.and_eq_true, decide_eq_true_eq] at h
  exact ⟨by exact_mod_cast UInt32.le_iff_toNat_le.1 h.1, by exact_mod_cast UInt32.le_iff_toNat_le.1 h.2⟩

theorem digitsVal_lt : ∀ {r : Str}, r.all Char.isDigit = true → digitsVal r < 10 ^ r.length
  | [], _ => by simp [digitsVal]
  | c :: r, h => by
    simp only [List.all_cons, Bool.and_eq_true] at h
    have h1 := isDigit_bounds h.1
    have h2 := digitsVal_lt h.2
    rw [digitsVal_cons, List.length_cons, Nat.pow_succ]
    have h3 : 10 ^ r.length * (c.toNat - 48) ≤ 10 ^ r.length * 9 := Nat.mul_le_mul_left _ (by omega)
    omega

/-- digits of the same number and length are the same -/
theorem digitsVal_inj : ∀ {a b : Str}, a.all Char.isDigit = true → b.all Char.isDigit = true → a.length = b.length →
    digitsVal a = digitsVal b → a = b
  | [], [], _, _, _, _ => rfl
  | [], _ :: _, _, _, h, _ => by simp at h
  | _ :: _, [], _, _, h, _ => by simp at h
  | c :: a, d :: b, ha, hb, hl, hv => by
    simp only [List.all_cons, Bool.and_eq_true] at ha hb
    simp only [List.length_cons, Nat.add_right_cancel_iff] at hl
    rw [digitsVal_cons, digitsVal_cons, hl] at hv
    have h1 := isDigit_bounds ha.1
    have h2 := isDigit_bounds hb.1
    have h3 := digitsVal_lt ha.2
    have h4 := digitsVal_lt hb.2
    rw [hl] at h3
    have hP : 0 < 10 ^ b.length := Nat.pow_pos (by omega)
    have hcd : c.toNat - 48 = d.toNat - 48 := by
      have e1 := congrArg (· / 10 ^ b.length) hv
      simpa [Nat.mul_add_div hP, Nat.div_eq_of_lt h3, Nat.div_eq_of_lt h4] using e1
    rw [hcd] at hv
    have hc : c = d := Char.toNat_inj.1 (by omega)
    rw [hc, digitsVal_inj ha.2 hb.2 hl (by omega)]

theorem fmtNat_fits {r : Str} (h : isDigits r = true) : (fmtNat (digitsVal r)).length ≤ r.length := by
  unfold isDigits at h
  simp only [Bool.and_eq_true, Bool.not_eq_true', List.isEmpty_eq_false_iff] at h
  unfold fmtNat
  rw [Nat.length_toDigits_le_iff (by omega) (List.length_pos_iff.2 h.1)]
  exact digitsVal_lt h.2

/-- digits are their number, padded with zeros -/
theorem digits_eq_padded {r : Str} (h : isDigits r = true) :
    r = List.replicate (r.length - (fmtNat (digitsVal r)).length) '0' ++ fmtNat (digitsVal r) := by
  have hf := fmtNat_fits h
  unfold isDigits at h
  simp only [Bool.and_eq_true] at h
  refine digitsVal_inj h.2 ?_ ?_ ?_
  · rw [List.all_append, fmtNat_all_digits]
    simp [List.all_replicate]
  · simp; omega
  · rw [digitsVal_zeros_append]

/-- digits that do not begin with zero are the number -/
theorem digits_eq_fmt {c : Char} {r : Str} (h : isDigits (c :: r) = true) (h0 : c ≠ '0') : c :: r = fmtNat (digitsVal (c :: r)) := by
  have h1 := digits_eq_padded h
  cases hk : (c :: r).length - (fmtNat (digitsVal (c :: r))).length with
  | zero => rw [hk] at h1; simpa using h1
  | succ k =>
    rw [hk, List.replicate_succ, List.cons_append] at h1
    exact absurd (List.cons.inj h1).1 h0

/-! ## Names -/

theorem zeroName_iff {k : Str} : zeroName k = true ↔ ∃ r, k = 'v' :: '0' :: r ∧ isDigits r = true := by
  constructor
  · intro h
    unfold zeroName at h
    split at h
    · exact ⟨_, rfl, h⟩
    · cases h
  · rintro ⟨r, rfl, h⟩; exact h

theorem noZeroName_iff {k : Str} : noZeroName k = true ↔ ∃ c r, k = 'v' :: c :: r ∧ c ≠ '0' ∧ isDigits (c :: r) = true := by
  constructor
  · intro h
    unfold noZeroName at h
    split at h
    · simp only [Bool.and_eq_true, decide_eq_true_eq] at h
      exact ⟨_, _, rfl, h.1.2, by unfold isDigits; simp [h.1.1]; simpa using h.2⟩
    · cases h
  · rintro ⟨c, r, rfl, h0, h⟩
    unfold isDigits at h
    simp only [List.isEmpty_cons, Bool.not_false, Bool.true_and, List.all_cons, Bool.and_eq_true] at h
    simp [noZeroName, h.1, h0, h.2]

/-- a name with a number of the given padding -/
def Padded (p : Nat) (k : Str) : Prop := ∃ n : Nat, 0 < n ∧ (0 < p → (fmtNat n).length ≤ p) ∧ k = verName (p : Int) (n : Int)

theorem verNumber_pos {k : Str} (hk : zeroName k = true ∨ noZeroName k = true) {n : Int} (h : verNumber k = some n) :
    ∃ m : Nat, 0 < m ∧ n = m ∧ ∃ r, k = 'v' :: r ∧ m = digitsVal r := by
  have hv := vNumber_of_verNumber hk h
  obtain ⟨r, rfl, hr⟩ : ∃ r, k = 'v' :: r ∧ isDigits r = true := by
    rcases hk with hk | hk
    · obtain ⟨r, rfl, hr⟩ := zeroName_iff.1 hk
      refine ⟨_, rfl, ?_⟩
      unfold isDigits at hr ⊢
      simp only [Bool.and_eq_true] at hr
      simp [hr.2]
    · obtain ⟨c, r, rfl, _, hr⟩ := noZeroName_iff.1 hk
      exact ⟨_, rfl, hr⟩
  simp only [vNumber, hr, if_true, Option.some.injEq] at hv
  refine ⟨digitsVal r, ?_, hv.symm, r, rfl, rfl⟩
  by_contra h0
  have hz : digitsVal r = 0 := by omega
  -- all digits are zero, so nothing is left of the name
  have hall : ∀ (s : Str), s.all Char.isDigit = true → digitsVal s = 0 → ∀ c ∈ s, c = '0' := by
    intro s
    induction s with
    | nil => intro _ _ c hc; simp at hc
    | cons d s ih =>
      intro hs hd c hc
      simp only [List.all_cons, Bool.and_eq_true] at hs
      rw [digitsVal_cons] at hd
      have hb := isDigit_bounds hs.1
      have hp : 0 < 10 ^ s.length := Nat.pow_pos (by omega)
      have h1 : 10 ^ s.length * (d.toNat - 48) = 0 := by omega
      have h2 : d.toNat - 48 = 0 := by
        rcases Nat.mul_eq_zero.1 h1 with h | h
        · omega
        · exact h
      rcases List.mem_cons.1 hc with rfl | hc
      · exact Char.toNat_inj.1 (by show c.toNat = 48; omega)
      · exact ih hs.2 (by omega) c hc
  have hr' := hr
  unfold isDigits at hr'
  simp only [Bool.and_eq_true] at hr'
  have hall := hall r hr'.2 hz
  have : trimLeft ('v' :: r) "v0".toList = [] := by
    unfold trimLeft
    rw [List.dropWhile_eq_nil_iff]
    intro c hc
    rcases List.mem_cons.1 hc with rfl | hc
    · decide
    · rw [hall c hc]; decide
  unfold verNumber at h
  rw [this] at h
  simp [atoi, isDigits] at h

theorem padded_zero {k : Str} (h : noZeroName k = true) {n : Int} (hn : verNumber k = some n) : Padded 0 k := by
  obtain ⟨m, h0, _, s, hs, hm⟩ := verNumber_pos (.inr h) hn
  obtain ⟨c, r, rfl, hc, hr⟩ := noZeroName_iff.1 h
  injection hs with _ hs
  subst hs
  refine ⟨m, h0, fun h => absurd h (by omega), ?_⟩
  rw [verName_zero, hm, ← digits_eq_fmt hr hc]

theorem padded_pos {k : Str} (h : zeroName k = true) {n : Int} (hn : verNumber k = some n) :
    ∃ p : Nat, 0 < p ∧ ((k.length : Int) - 2 = p) ∧ Padded p k := by
  obtain ⟨m, h0, _, s, hs, hm⟩ := verNumber_pos (.inl h) hn
  obtain ⟨r, rfl, hr⟩ := zeroName_iff.1 h
  injection hs with _ hs
  subst hs
  rw [digitsVal_zero_cons] at hm
  have hlen : 0 < r.length := by
    unfold isDigits at hr
    simp only [Bool.and_eq_true, Bool.not_eq_true', List.isEmpty_eq_false_iff] at hr
    exact List.length_pos_iff.2 hr.1
  refine ⟨r.length, hlen, by simp; omega, m, h0, fun _ => hm ▸ fmtNat_fits hr, ?_⟩
  rw [verName_pos hlen, hm, ← digits_eq_padded hr]

theorem padStep_clean {pad : Int} {k : Str} {n : Int} (hn : verNumber k = some n) (h : NoErrors (padStep pad k).2) :
    ∃ p : Nat, (padStep pad k).1 = p ∧ (pad = -1 ∨ pad = p) ∧ Padded p k := by
  unfold padStep at h ⊢
  by_cases hz : zeroName k = true
  · obtain ⟨p, hp, hl, hP⟩ := padded_pos hz hn
    rw [if_pos hz, hl] at h ⊢
    refine ⟨p, ?_⟩
    by_cases h1 : pad = -1
    · rw [if_pos h1]; exact ⟨rfl, .inl h1, hP⟩
    · rw [if_neg h1] at h ⊢
      by_cases h2 : pad = p
      · rw [if_neg (not_not.2 h2)]; exact ⟨h2, .inr h2, hP⟩
      · rw [if_pos h2] at h
        exact absurd (h _ (List.mem_cons_self)) (by simp [err])
  · rw [if_neg hz] at h ⊢
    by_cases hnz : noZeroName k = true
    · rw [if_pos hnz] at h ⊢
      refine ⟨0, ?_⟩
      have hP := padded_zero hnz hn
      by_cases h1 : pad = -1
      · rw [if_pos h1]; exact ⟨rfl, .inl h1, hP⟩
      · rw [if_neg h1] at h ⊢
        by_cases h2 : pad = 0
        · rw [if_neg (not_not.2 h2)]; exact ⟨h2, .inr h2, hP⟩
        · rw [if_pos h2] at h
          exact absurd (h _ (List.mem_cons_self)) (by simp [err])
    · rw [if_neg hnz] at h
      exact absurd (h _ (List.mem_cons_self)) (by simp [err])

theorem padFold_clean {l : List Str} (hv : ∀ k ∈ l, ∃ n, verNumber k = some n) {pad : Int} (h : NoErrors (padFold pad l).2) :
    l = [] ∨ ∃ p : Nat, (pad = -1 ∨ pad = p) ∧ Uniform p l := by
  induction l generalizing pad with
  | nil => exact .inl rfl
  | cons k l ih =>
    obtain ⟨n, hn⟩ := hv k List.mem_cons_self
    rw [padFold] at h
    simp only [hn, noErrors_append] at h
    obtain ⟨p, h1, h2, h3⟩ := padStep_clean hn h.1
    refine .inr ⟨p, h2, ?_⟩
    rw [h1] at h
    rcases ih (fun k hk => hv k (List.mem_cons_of_mem _ hk)) h.2 with rfl | ⟨q, hq, hu⟩
    · intro k' hk'
      rw [List.mem_singleton] at hk'
      rw [hk']; exact h3
    · have hqp : p = q := by omega
      subst hqp
      intro k' hk'
      rcases List.mem_cons.1 hk' with rfl | hk'
      · exact h3
      · exact hu k' hk'

/-! ## The property -/

/-- The names are those of versions 1 to `N`, all with padding `p` (0: none), each once. -/
def NamedUpTo (p N : Nat) (names : List Str) : Prop :=
  names.Perm ((List.range N).map (fun k => verName (p : Int) ((k + 1 : Nat) : Int))) ∧ (0 < p → (fmtNat N).length ≤ p)

theorem names_of_uniform {p : Nat} {l : List Str} (hu : Uniform p l) {N : Nat}
    (hs : (l.filterMap verNumber).Perm ((List.range N).map (fun k => ((k + 1 : Nat) : Int)))) : NamedUpTo p N l := by
  have hname : ∀ k ∈ l, ∃ n : Nat, verNumber k = some (n : Int) ∧ k = verName (p : Int) (n : Int) := by
    intro k hk
    obtain ⟨n, hn, _, rfl⟩ := hu k hk
    exact ⟨n, (nameOf_verName (p : Int) hn).verNumber, rfl⟩
  have hback : (l.filterMap verNumber).map (verName (p : Int)) = l := by
    clear hs hu
    induction l with
    | nil => rfl
    | cons k l ih =>
      obtain ⟨n, h1, h2⟩ := hname k List.mem_cons_self
      rw [List.filterMap_cons, h1]
      simp only [List.map_cons]
      rw [ih (fun k hk => hname k (List.mem_cons_of_mem _ hk)), ← h2]
  refine ⟨?_, fun hp => ?_⟩
  · have := hs.map (verName (p : Int))
    rw [hback, List.map_map] at this
    exact this
  · rcases Nat.eq_zero_or_pos N with rfl | hN
    · show 1 ≤ p
      exact hp
    · have hm : (((N - 1) + 1 : Nat) : Int) ∈ l.filterMap verNumber :=
        hs.mem_iff.2 (List.mem_map.2 ⟨N - 1, List.mem_range.2 (by omega), rfl⟩)
      obtain ⟨k, hk, hkn⟩ := List.mem_filterMap.1 hm
      obtain ⟨n, hn, hw, rfl⟩ := hu k hk
      rw [(nameOf_verName (p : Int) hn).verNumber] at hkn
      have : n = N := by
        have := Option.some.inj hkn
        omega
      exact this ▸ hw hp

/-- **C182, exactness**: the checks of names, padding and sequence find nothing exactly if the names are those of versions
1 to `N` with one padding, each once; in whatever order the names are met. -/
theorem C182_names_iff (l : List Str) :
    ((∀ k ∈ l, ∃ n, verNumber k = some n) ∧ NoErrors (padFold (-1) l).2 ∧ sequenceFnd (l.filterMap verNumber) = []) ↔
      ∃ p N, NamedUpTo p N l := by
  constructor
  · rintro ⟨h1, h2, h3⟩
    obtain ⟨N, hN⟩ := (sequenceFnd_eq_nil_iff _).1 h3
    rcases padFold_clean h1 h2 with rfl | ⟨p, _, hu⟩
    · exact ⟨0, 0, by simp, fun h => absurd h (by omega)⟩
    · exact ⟨p, N, names_of_uniform hu hN⟩
  · rintro ⟨p, N, h1, hw⟩
    have hu : Uniform p l := by
      intro k hk
      obtain ⟨j, hj, rfl⟩ := List.mem_map.1 (h1.mem_iff.1 hk)
      have := List.mem_range.1 hj
      exact ⟨j + 1, by omega, fun hp => le_trans (fmtNat_length_mono (by omega)) (hw hp), rfl⟩
    refine ⟨?_, ?_, ?_⟩
    · intro k hk
      obtain ⟨n, hn, _, rfl⟩ := hu k hk
      exact ⟨_, (nameOf_verName (p : Int) hn).verNumber⟩
    · rw [padFold_uniform hu (Or.inl rfl)]
      intro x hx; simp at hx
    · refine (sequenceFnd_eq_nil_iff _).2 ⟨N, (h1.filterMap verNumber).trans ?_⟩
      rw [List.filterMap_map]
      refine List.Perm.of_eq ?_
      rw [← List.filterMap_eq_map]
      refine List.filterMap_congr ?_
      intro k _
      exact (nameOf_verName (p : Int) (Nat.succ_pos k)).verNumber

theorem finalize_names {env : Env} {r : RawInv} {inv : Inv} {f : List Fnd} (h : finalize env r = .ok (inv, f)) (hn : NoErrors f) :
    ∃ p N, NamedUpTo p N (mkeys inv.versions) := by
  obtain ⟨a, b, ha, hb, rfl, rfl⟩ := finalize_ok h
  simp only [noErrors_append] at hn
  obtain ⟨⟨_, hna⟩, hnb⟩ := hn
  have F := check_findings hb
  have hmem := fun x hx => hnb x ((F.mem x).2 hx)
  refine (C182_names_iff _).1 ⟨?_, fun x hx => hmem x (Or.inr (Or.inl hx)), ?_⟩
  · intro k hk
    obtain ⟨⟨k', v⟩, he, rfl⟩ := List.mem_map.1 hk
    obtain ⟨g, hg, hgn⟩ := collect_noErrors ha hna he
    unfold finalizeVersion at hg
    cases hv : verNumber k' with
    | none =>
      simp only [hv] at hg
      cases hg
      have := hgn _ (List.mem_singleton.2 rfl)
      simp [err] at this
    | some n => exact ⟨n, rfl⟩
  · have hs : NoErrors (sequenceFnd (versionNumbers r.inv)) := fun x hx => hmem x (Or.inr (Or.inr (Or.inr (Or.inl hx))))
    show sequenceFnd (versionNumbers r.inv) = []
    unfold sequenceFnd at hs ⊢
    split
    · rename_i hc
      rw [if_pos hc] at hs
      have := hs _ (List.mem_singleton.2 rfl)
      simp [err] at this
    · rfl

theorem names_head {p N : Nat} {inv : Inv} (h : NamedUpTo p N (mkeys inv.versions)) (G : GoodVersions inv) :
    0 < N ∧ inv.head = verName (p : Int) (N : Int) := by
  obtain ⟨j, hj, hjh⟩ := List.mem_map.1 (h.1.mem_iff.1 G.head)
  have hj := List.mem_range.1 hj
  refine ⟨by omega, ?_⟩
  have hl := G.last (verName (p : Int) (((N - 1) + 1 : Nat) : Int)) (h.1.mem_iff.2 (List.mem_map.2 ⟨N - 1, List.mem_range.2 (by omega), rfl⟩))
  rw [← hjh] at hl ⊢
  have hle : N ≤ j + 1 := by
    unfold versionLessOrEqual at hl
    simp only [show N - 1 + 1 = N by omega] at hl
    have v1 : ∀ n, 0 < n → n ≤ N → versionValue inv (verName (p : Int) (n : Int)) = some (n : Int) := by
      intro n h0 hN
      have hm : verName (p : Int) (n : Int) ∈ mkeys inv.versions :=
        h.1.mem_iff.2 (List.mem_map.2 ⟨n - 1, List.mem_range.2 (by omega), by simp only [show n - 1 + 1 = n by omega]⟩)
      have hv := (nameOf_verName (p : Int) h0).verNumber
      unfold verNumber at hv
      cases hg : mget inv.versions (verName (p : Int) (n : Int)) with
      | none => exact absurd hm (mget_eq_none_iff.1 hg)
      | some _ => simp only [versionValue, hg]; exact hv
    rw [v1 N (by omega) (le_refl _), v1 (j + 1) (by omega) (by omega)] at hl
    simp at hl
    omega
  rw [show j + 1 = N by omega]

/-- **C182.** An object that validates without errors has versions `v1` to `vN`, all with the same zero-padding, each once, and
its head is the last. -/
theorem C182_accepted {w : World} {env : Env} {plain : Bool} {blank : Inv} {fs : FS} {folder : Str} {F : List Fnd}
    (h : checkFolder w env plain blank fs folder = .ok F) (hn : NoErrors F) :
    ∃ inv f p N, loadByFolder w env plain blank fs folder = .ok (inv, f) ∧ NamedUpTo p N (mkeys inv.versions) ∧ 0 < N ∧
      inv.head = verName (p : Int) (N : Int) := by
  obtain ⟨inv, f, g, hl, hr, hg, rfl⟩ := checkFolder_ok h hn
  rw [noErrors_append] at hn
  have G := (loadRoot_good hr hn.1).1
  obtain ⟨b, r, x, y, _, _, hx, _, rfl, rfl⟩ := loadRoot_ok hr
  have hn1 := hn.1
  rw [noErrors_append] at hn1
  obtain ⟨p, N, hpN⟩ := finalize_names (inv := x.1) (f := x.2) hx hn1.1
  obtain ⟨h0, hh⟩ := names_head (inv := x.1) hpN ⟨G.num, G.seq, G.mem, G.head, G.last⟩
  exact ⟨_, _, p, N, hl, hpN, h0, hh⟩

/-! ## Cases -/

/-- the hypotheses of C182 are met -/
example : ∃ F, checkFolder (nfaWorld "sha512".toList "data".toList) exEnv false ockInv (nfaFS "sha512".toList "data".toList)
    "o".toList = .ok F ∧ NoErrors F := ⟨[], by decide, fun x hx => by simp at hx⟩

example : NamedUpTo 2 3 ["v002".toList, "v001".toList, "v003".toList] := ⟨by decide, fun _ => by decide⟩
example : ¬ NoErrors (padFold (-1) ["v01".toList, "v2".toList]).2 := fun h => by
  have := h (err 11 ["v2".toList]) (by decide)
  simp [err] at this
example : ¬ NoErrors (padFold (-1) ["v01".toList, "v002".toList]).2 := fun h => by
  have := h (err 12 ["v002".toList]) (by decide)
  simp [err] at this

end Gocfl
