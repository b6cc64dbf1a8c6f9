import Verif.Model.Layout
import Mathlib.Data.List.Basic
import Mathlib.Tactic.Ring

/-!
# Lemmas on the storage layouts
-/

namespace Gocfl

/-- a lower case hexadecimal digit, as written by `%x` -/
def LowHex (c : Char) : Prop := (48 ≤ c.toNat ∧ c.toNat ≤ 57) ∨ (97 ≤ c.toNat ∧ c.toNat ≤ 102)

/-- digests are written with `%x` -/
def LowHexStr (s : Str) : Prop := ∀ c ∈ s, LowHex c

theorem resMapM_ok {α β : Type} {f : α → Res β} {g : α → β} {l : List α} (h : ∀ a ∈ l, f a = .ok (g a)) :
    l.mapM f = .ok (l.map g) := by
  induction l with
  | nil => rfl
  | cons a l ih => rw [List.mapM_cons, h a (by simp), ih (fun b hb => h b (by simp [hb]))]; rfl

theorem resMapM_mem {α β : Type} {f : α → Res β} {l : List α} {r : List β} (h : l.mapM f = .ok r) :
    r.length = l.length ∧ ∀ x ∈ r, ∃ a ∈ l, f a = .ok x := by
  induction l generalizing r with
  | nil => cases h; simp
  | cons a l ih =>
    rw [List.mapM_cons, res_bind_eq_ok] at h
    obtain ⟨x, hx, h⟩ := h
    rw [res_bind_eq_ok] at h
    obtain ⟨xs, hxs, h⟩ := h
    cases h
    obtain ⟨h1, h2⟩ := ih hxs
    refine ⟨by simp [h1], ?_⟩
    intro y hy
    rcases List.mem_cons.1 hy with rfl | hy
    · exact ⟨a, by simp, hx⟩
    · obtain ⟨b, hb, hf⟩ := h2 y hy
      exact ⟨b, by simp [hb], hf⟩

/-- the first failing element decides -/
theorem resMapM_head_err {α β : Type} {f : α → Res β} {a : α} {l : List α} {e : GoErr} (h : f a = .error e) :
    (a :: l).mapM f = .error e := by
  rw [List.mapM_cons, h]; rfl

/-! ## Slices -/

theorem goSlice_ok {α : Type} {s r : List α} {a b : Int} (h : goSlice s a b = .ok r) :
    0 ≤ a ∧ a ≤ b ∧ b ≤ s.length ∧ r = (s.drop a.toNat).take (b - a).toNat := by
  unfold goSlice at h
  split at h
  · rename_i hc; cases h; exact ⟨hc.1, hc.2.1, hc.2.2, rfl⟩
  · simp at h

theorem goSlice_length {α : Type} {s r : List α} {a b : Int} (h : goSlice s a b = .ok r) :
    (r.length : Int) = b - a := by
  obtain ⟨h1, h2, h3, rfl⟩ := goSlice_ok h
  rw [List.length_take, List.length_drop]
  omega

theorem goSlice_mem {α : Type} {s r : List α} {a b : Int} (h : goSlice s a b = .ok r) {x : α} (hx : x ∈ r) :
    x ∈ s := by
  obtain ⟨_, _, _, rfl⟩ := goSlice_ok h
  exact List.mem_of_mem_drop (List.mem_of_mem_take hx)

theorem goSlice_block {α : Type} {s : List α} {k i : Nat} (h : (i + 1) * k ≤ s.length) :
    goSlice s ((i : Int) * (k : Int)) (((i : Int) + 1) * (k : Int)) = .ok ((s.drop (i * k)).take k) := by
  unfold goSlice
  have e1 : ((i : Int) * (k : Int)) = ((i * k : Nat) : Int) := by push_cast; rfl
  have e2 : (((i : Int) + 1) * (k : Int)) = (((i + 1) * k : Nat) : Int) := by push_cast; rfl
  have e3 : (i + 1) * k = i * k + k := by ring
  rw [e1, e2, if_pos (by omega)]
  congr 2
  · omega

theorem blocks_flatten {α : Type} (s : List α) (k n : Nat) :
    ((List.range n).map (fun i => (s.drop (i * k)).take k)).flatten = s.take (n * k) := by
  induction n with
  | zero => simp
  | succ n ih =>
    rw [List.range_succ, List.map_append, List.flatten_append, ih]
    have e : (n + 1) * k = n * k + k := by ring
    rw [e, List.take_add]
    simp

/-- `n` blocks of `k` -/
theorem mapM_blocks {α : Type} {s : List α} {k n : Nat} (h : n * k ≤ s.length) :
    (List.range n).mapM (fun (i : Nat) => goSlice s ((i : Int) * (k : Int)) (((i : Int) + 1) * (k : Int))) =
      .ok ((List.range n).map (fun i => (s.drop (i * k)).take k)) := by
  apply resMapM_ok
  intro i hi
  apply goSlice_block
  have : i + 1 ≤ n := by have := List.mem_range.1 hi; omega
  exact le_trans (Nat.mul_le_mul_right k this) h

theorem block_length {α : Type} {s : List α} {k n : Nat} (h : n * k ≤ s.length) {t : List α}
    (ht : t ∈ (List.range n).map (fun i => (s.drop (i * k)).take k)) : t.length = k := by
  obtain ⟨i, hi, rfl⟩ := List.mem_map.1 ht
  have : i + 1 ≤ n := by have := List.mem_range.1 hi; omega
  have h2 := le_trans (Nat.mul_le_mul_right k this) h
  have e : (i + 1) * k = i * k + k := by ring
  rw [List.length_take, List.length_drop]
  omega

/-! ## Hexadecimal numbers -/

theorem digitChar_lowHex {n : Nat} (h : n < 16) : LowHex n.digitChar := by
  have : ∀ m : Fin 16, LowHex (m.val).digitChar := by unfold LowHex; decide
  exact this ⟨n, h⟩

theorem digitChar_inj {n m : Nat} (hn : n < 16) (hm : m < 16) (h : n.digitChar = m.digitChar) : n = m := by
  have : ∀ a b : Fin 16, (a.val).digitChar = (b.val).digitChar → a = b := by decide
  have := this ⟨n, hn⟩ ⟨m, hm⟩ h
  simpa using this

theorem hexNat_two {n : Nat} (h1 : 16 ≤ n) (h2 : n < 256) :
    hexNat n = [(n / 16).digitChar, (n % 16).digitChar] := by
  unfold hexNat
  rw [Nat.toDigits_of_base_le (by omega) h1, Nat.toDigits_of_lt_base (by omega)]
  rfl

theorem hexNat_lowHex (n : Nat) : LowHexStr (hexNat n) := by
  induction n using Nat.strong_induction_on with
  | _ n ih =>
    unfold hexNat
    by_cases h : n < 16
    · rw [Nat.toDigits_of_lt_base h]
      intro c hc
      simp at hc; subst hc
      exact digitChar_lowHex h
    · rw [Nat.toDigits_of_base_le (by omega) (by omega)]
      intro c hc
      rcases List.mem_append.1 hc with hc | hc
      · exact ih (n / 16) (by omega) c hc
      · simp at hc; subst hc
        exact digitChar_lowHex (by omega)

theorem hexNat_two_inj {n m : Nat} (hn1 : 16 ≤ n) (hn2 : n < 256) (hm1 : 16 ≤ m) (hm2 : m < 256) {r s : Str}
    (h : hexNat n ++ r = hexNat m ++ s) : n = m ∧ r = s := by
  rw [hexNat_two hn1 hn2, hexNat_two hm1 hm2] at h
  simp only [List.cons_append, List.nil_append, List.cons.injEq] at h
  have h1 := digitChar_inj (by omega) (by omega) h.1
  have h2 := digitChar_inj (by omega) (by omega) h.2.1
  exact ⟨by omega, h.2.2⟩

/-- A code whose words are self-delimiting is uniquely decodable. -/
theorem flatMap_inj {P : Char → Prop} {f : Char → Str} (hne : ∀ c, P c → f c ≠ [])
    (hpre : ∀ a b r s, P a → P b → f a ++ r = f b ++ s → a = b ∧ r = s) :
    ∀ s t : Str, (∀ c ∈ s, P c) → (∀ c ∈ t, P c) → s.flatMap f = t.flatMap f → s = t := by
  intro s
  induction s with
  | nil =>
    intro t _ ht h
    cases t with
    | nil => rfl
    | cons b t =>
      rw [List.flatMap_cons, List.flatMap_nil] at h
      exact absurd (List.append_eq_nil_iff.1 h.symm).1 (hne b (ht b (by simp)))
  | cons a s ih =>
    intro t hs ht h
    cases t with
    | nil =>
      rw [List.flatMap_cons, List.flatMap_nil] at h
      exact absurd (List.append_eq_nil_iff.1 h).1 (hne a (hs a (by simp)))
    | cons b t =>
      rw [List.flatMap_cons, List.flatMap_cons] at h
      obtain ⟨rfl, h2⟩ := hpre a b _ _ (hs a (by simp)) (ht b (by simp)) h
      rw [ih t (fun c hc => hs c (by simp [hc])) (fun c hc => ht c (by simp [hc])) h2]

/-- lists of strings without separator are determined by their join -/
theorem joinWith_inj {sep : Char} {a b : List Str} (ha : a ≠ []) (hb : b ≠ []) (ha' : ∀ c ∈ a, sep ∉ c)
    (hb' : ∀ c ∈ b, sep ∉ c) (h : joinWith sep a = joinWith sep b) : a = b := by
  rw [← splitOn_joinWith_noSep ha ha', ← splitOn_joinWith_noSep hb hb', h]

/-! ## Layout 0003 -/

/-- the characters of escaped ids -/
def EscChar (c : Char) : Prop := idChar c = true ∨ c = '%'

theorem lowHex_idChar {c : Char} (h : LowHex c) : idChar c = true := by
  unfold LowHex at h
  unfold idChar
  simp only [Bool.or_eq_true, decide_eq_true_eq]
  omega

theorem escape1_chars {c d : Char} (h : d ∈ escape1 c) : EscChar d := by
  unfold escape1 at h
  split at h
  · rename_i hc; simp at h; subst h; exact .inl hc
  · rcases List.mem_cons.1 h with rfl | h
    · exact .inr rfl
    · exact .inl (lowHex_idChar (hexNat_lowHex _ _ h))

theorem escape_chars {s : Str} : ∀ c ∈ escape s, EscChar c := by
  intro c hc
  obtain ⟨d, _, hd⟩ := List.mem_flatMap.1 hc
  exact escape1_chars hd

theorem escape1_ne_nil (c : Char) : escape1 c ≠ [] := by
  unfold escape1; split <;> simp

theorem escape_ne_nil {s : Str} (h : s ≠ []) : escape s ≠ [] := by
  cases s with
  | nil => exact absurd rfl h
  | cons c s =>
    unfold escape
    rw [List.flatMap_cons]
    intro h
    exact escape1_ne_nil c (List.append_eq_nil_iff.1 h).1

theorem percent_not_idChar : idChar '%' = false := by decide

theorem escape_inj {s t : Str} (hs : ∀ c ∈ s, 16 ≤ c.toNat ∧ c.toNat < 256)
    (ht : ∀ c ∈ t, 16 ≤ c.toNat ∧ c.toNat < 256) (h : escape s = escape t) : s = t := by
  refine flatMap_inj (P := fun c => 16 ≤ c.toNat ∧ c.toNat < 256) (f := escape1) (fun c _ => escape1_ne_nil c) ?_ s t hs ht h
  intro a b r u ha hb he
  unfold escape1 at he
  split at he <;> split at he
  · simp at he; exact he
  · rename_i h1 _
    simp only [List.cons_append, List.cons.injEq, List.nil_append] at he
    rw [he.1] at h1
    rw [percent_not_idChar] at h1
    simp at h1
  · rename_i h1
    simp only [List.cons_append, List.cons.injEq, List.nil_append] at he
    rw [← he.1] at h1
    rw [percent_not_idChar] at h1
    simp at h1
  · simp only [List.cons_append, List.cons.injEq, true_and] at he
    obtain ⟨h1, h2⟩ := hexNat_two_inj ha.1 ha.2 hb.1 hb.2 he
    exact ⟨char_toNat_inj h1, h2⟩

theorem escChar_slash : ¬ EscChar '/' := by unfold EscChar; decide
theorem escChar_dot : ¬ EscChar '.' := by unfold EscChar; decide
theorem escChar_dash : EscChar '-' := by unfold EscChar; decide

/-- a component without dots and slashes is an ordinary one -/
theorem validComp_of_chars {c : Str} (hne : c ≠ []) (h : ∀ x ∈ c, EscChar x) : ValidComp c := by
  refine ⟨hne, ?_, ?_, fun hs => escChar_slash (h _ hs)⟩
  · rintro rfl; exact escChar_dot (h '.' (by decide))
  · rintro rfl; exact escChar_dot (h '.' (by decide))

theorem encapsulation_chars {id d : Str} (hd : LowHexStr d) : ∀ x ∈ encapsulation id d, EscChar x := by
  intro x hx
  unfold encapsulation at hx
  split at hx
  · rcases List.mem_append.1 hx with hx | hx
    · exact escape_chars x (List.mem_of_mem_take hx)
    · rcases List.mem_cons.1 hx with rfl | hx
      · exact escChar_dash
      · exact .inl (lowHex_idChar (hd x hx))
  · exact escape_chars x hx

theorem encapsulation_length (id d : Str) : (encapsulation id d).length ≤ 101 + d.length := by
  unfold encapsulation
  split
  · rw [List.length_append, List.length_take, List.length_cons]; omega
  · omega

theorem encapsulation_ne_nil {id d : Str} (h : id ≠ []) : encapsulation id d ≠ [] := by
  unfold encapsulation
  split
  · simp
  · exact escape_ne_nil h

theorem encapsulation_inj {s t d e : Str} (hs : ∀ c ∈ s, 16 ≤ c.toNat ∧ c.toNat < 256)
    (ht : ∀ c ∈ t, 16 ≤ c.toNat ∧ c.toNat < 256) (h : encapsulation s d = encapsulation t e) : s = t ∨ d = e := by
  unfold encapsulation at h
  split at h <;> split at h
  · right
    have := (List.append_inj h (by rw [List.length_take, List.length_take]; omega)).2
    exact (List.cons.inj this).2
  · rename_i h1 h2
    have := congrArg List.length h
    rw [List.length_append, List.length_take, List.length_cons] at this
    omega
  · rename_i h1 h2
    have := congrArg List.length h
    rw [List.length_append, List.length_take, List.length_cons] at this
    omega
  · left; exact escape_inj hs ht h

/-! ## Tuples -/

theorem newTupleCfg_bounds (c : TupleCfg) :
    (newTupleCfg c).tupleSize ≤ 32 ∧ (newTupleCfg c).numberOfTuples ≤ 32 ∧
      ((newTupleCfg c).tupleSize = 0 ↔ (newTupleCfg c).numberOfTuples = 0) := by
  unfold newTupleCfg
  simp only
  have h1 : (if c.numberOfTuples > 32 then 32 else c.numberOfTuples) ≤ 32 := by split <;> omega
  have h2 : (if c.tupleSize > 32 then 32 else c.tupleSize) ≤ 32 := by split <;> omega
  generalize (if c.numberOfTuples > 32 then 32 else c.numberOfTuples) = n at *
  generalize (if c.tupleSize > 32 then 32 else c.tupleSize) = s at *
  by_cases h : s = 0 ∨ n = 0
  · rw [if_pos h]; simp
  · rw [if_neg h]; simp only; omega

theorem newTupleCfg_nonneg {c : TupleCfg} (h1 : 0 ≤ c.tupleSize) (h2 : 0 ≤ c.numberOfTuples) :
    0 ≤ (newTupleCfg c).tupleSize ∧ 0 ≤ (newTupleCfg c).numberOfTuples := by
  unfold newTupleCfg
  simp only
  by_cases h3 : c.numberOfTuples > 32 <;> by_cases h4 : c.tupleSize > 32 <;> simp only [h3, h4, if_true, if_false] <;>
    split <;> simp only <;> omega

/-- whatever the configuration: tuples are pieces of the digest of the configured size, which then is not negative -/
theorem tuples_ok {d : Str} {c : TupleCfg} {ts : List Str} (h : tuples d c = .ok ts) :
    ts.length = c.numberOfTuples.toNat ∧ ∀ t ∈ ts, (t.length : Int) = c.tupleSize ∧ ∀ x ∈ t, x ∈ d := by
  obtain ⟨h1, h2⟩ := resMapM_mem h
  refine ⟨by simpa using h1, ?_⟩
  intro t ht
  obtain ⟨i, _, hi⟩ := h2 t ht
  refine ⟨?_, fun x hx => goSlice_mem hi hx⟩
  rw [goSlice_length hi]; ring

/-- for a sensible configuration the tuples are the beginning of the digest -/
theorem tuples_nonneg {d : Str} {c : TupleCfg} (h1 : 0 ≤ c.tupleSize) (h2 : 0 ≤ c.numberOfTuples)
    (h : c.tupleSize * c.numberOfTuples ≤ d.length) :
    ∃ ts, tuples d c = .ok ts ∧ ts.length = c.numberOfTuples.toNat ∧ (∀ t ∈ ts, t.length = c.tupleSize.toNat) ∧
      ts.flatten = d.take (c.numberOfTuples.toNat * c.tupleSize.toNat) := by
  obtain ⟨s, n, b⟩ := c
  simp only at h1 h2 h ⊢
  obtain ⟨k, rfl⟩ := Int.eq_ofNat_of_zero_le h1
  obtain ⟨m, rfl⟩ := Int.eq_ofNat_of_zero_le h2
  have hle : m * k ≤ d.length := by
    have : ((m * k : Nat) : Int) ≤ d.length := by push_cast; rw [mul_comm]; exact h
    exact_mod_cast this
  refine ⟨_, mapM_blocks (s := d) (k := k) (n := m) hle, by simp, ?_, ?_⟩
  · intro t ht; exact block_length hle ht
  · rw [blocks_flatten]; rfl

/-! ## Positions of delimiters -/

theorem range_reverse_find {P : Nat → Bool} {n i : Nat} (h : (List.range n).reverse.find? P = some i) :
    P i = true ∧ i < n ∧ ∀ j, i < j → j < n → P j = false := by
  induction n with
  | zero => simp at h
  | succ n ih =>
    rw [List.range_succ, List.reverse_append] at h
    simp only [List.reverse_cons, List.reverse_nil, List.nil_append, List.cons_append, List.find?_cons] at h
    split at h
    · rename_i hp
      cases h
      exact ⟨hp, by omega, fun j h1 h2 => by omega⟩
    · rename_i hp
      obtain ⟨h1, h2, h3⟩ := ih h
      refine ⟨h1, by omega, fun j hj1 hj2 => ?_⟩
      by_cases hj : j = n
      · subst hj; simpa using hp
      · exact h3 j hj1 (by omega)

theorem lastIndex_some {s sep : Str} {i : Nat} (h : lastIndex s sep = some i) :
    s = s.take i ++ sep ++ s.drop (i + sep.length) ∧ (s.take i).length = i ∧
      ∀ a b, s = a ++ sep ++ b → a.length ≤ i := by
  obtain ⟨h1, h2, h3⟩ := range_reverse_find h
  have hp := List.isPrefixOf_iff_prefix.1 h1
  obtain ⟨r, hr⟩ := hp
  refine ⟨?_, by rw [List.length_take]; omega, ?_⟩
  · have hd : s.drop (i + sep.length) = r := by
      rw [← List.drop_drop, ← hr]; simp
    rw [hd, List.append_assoc, hr, List.take_append_drop]
  · intro a b hab
    by_contra hc
    have hlt : i < a.length := by omega
    have hlen : a.length ≤ s.length := by rw [hab]; simp only [List.length_append]; omega
    have hf := h3 a.length hlt (by omega)
    have ht : sep.isPrefixOf (s.drop a.length) = true := by
      rw [List.isPrefixOf_iff_prefix, hab, List.append_assoc, List.drop_left]
      exact List.prefix_append sep b
    rw [hf] at ht
    exact absurd ht (by decide)

theorem lastIndex_none {s sep : Str} (h : lastIndex s sep = none) : ∀ a b, s ≠ a ++ sep ++ b := by
  intro a b hab
  unfold lastIndex at h
  rw [List.find?_eq_none] at h
  have hlen : a.length ≤ s.length := by rw [hab]; simp only [List.length_append]; omega
  apply h a.length (by simp; omega)
  rw [List.isPrefixOf_iff_prefix, hab, List.append_assoc, List.drop_left]
  exact List.prefix_append sep b

/-! ## Runes -/

theorem runeLen_le {s : Str} {k : Nat} (h : runeLen s = some k) : 1 ≤ k ∧ k ≤ s.length := by
  unfold runeLen at h
  split at h
  · simp at h
  · split at h
    · cases h; simp
    · split at h
      · simp at h
      · split at h
        · split at h
          · cases h; simp
          · simp at h
        · split at h
          · simp at h
          · split at h
            · split at h
              · cases h; simp
              · simp at h
            · split at h
              · simp at h
              · split at h
                · split at h
                  · cases h; simp
                  · simp at h
                · simp at h

theorem runesFuel_length (n : Nat) (s : Str) (h : s.length ≤ n) : s.length ≤ (runesFuel n s).flatten.length := by
  induction n generalizing s with
  | zero => simp at h; simp [h]
  | succ n ih =>
    cases s with
    | nil => simp
    | cons a r =>
      rw [runesFuel]
      split
      · have := ih r (by simp at h; omega)
        rw [List.flatten_cons, List.length_append]
        simp only [List.length_cons, replacementRune, List.length_nil]
        omega
      · rename_i k hk
        obtain ⟨h1, h2⟩ := runeLen_le hk
        have := ih ((a :: r).drop k) (by rw [List.length_drop]; omega)
        rw [List.flatten_cons, List.length_append, List.length_take]
        rw [List.length_drop] at this
        omega

theorem reverseRunes_length (s : Str) : s.length ≤ (reverseRunes s).length := by
  unfold reverseRunes
  have h := runesFuel_length s.length s le_rfl
  have : ((runes s).reverse.flatten).length = (runes s).flatten.length := by
    rw [List.length_flatten, List.length_flatten, List.map_reverse, List.sum_reverse]
  rw [this]; exact h

theorem runesFuel_ascii (n : Nat) (s : Str) (h : s.length ≤ n) (ha : ∀ c ∈ s, c.toNat < 128) :
    runesFuel n s = s.map (fun c => [c]) := by
  induction n generalizing s with
  | zero => simp at h; simp [h, runesFuel]
  | succ n ih =>
    cases s with
    | nil => rfl
    | cons a r =>
      have h1 : runeLen (a :: r) = some 1 := by
        simp only [runeLen]; rw [if_pos (ha a (by simp))]
      rw [runesFuel, h1]
      simp only [List.take_succ_cons, List.take_zero, List.drop_succ_cons, List.drop_zero, List.map_cons]
      rw [ih r (by simp at h; omega) (fun c hc => ha c (by simp [hc]))]

theorem reverseRunes_ascii {s : Str} (ha : ∀ c ∈ s, c.toNat < 128) : reverseRunes s = s.reverse := by
  unfold reverseRunes runes
  rw [runesFuel_ascii _ _ le_rfl ha, ← List.map_reverse]
  generalize s.reverse = t
  induction t with
  | nil => rfl
  | cons a t ih => simp [ih]

/-! ## Pairtree -/

theorem chunksFuel_spec {α : Type} {n : Nat} (hn : 1 ≤ n) (f : Nat) (l : List α) (h : l.length ≤ f) :
    (chunksFuel n f l).flatten = l ∧ ∀ c ∈ chunksFuel n f l, c ≠ [] ∧ c.length ≤ n := by
  induction f generalizing l with
  | zero => simp at h; simp [h, chunksFuel]
  | succ f ih =>
    cases l with
    | nil => simp [chunksFuel]
    | cons a l =>
      rw [chunksFuel]
      obtain ⟨h1, h2⟩ := ih ((a :: l).drop n) (by rw [List.length_drop]; omega)
      refine ⟨by rw [List.flatten_cons, h1, List.take_append_drop], ?_⟩
      intro c hc
      rcases List.mem_cons.1 hc with rfl | hc
      · refine ⟨?_, by rw [List.length_take]; omega⟩
        obtain ⟨m, rfl⟩ : ∃ m, n = m + 1 := ⟨n - 1, by omega⟩
        simp
      · exact h2 c hc

theorem pairKept_iff {c : Char} : pairKept c = true ↔ (0x21 ≤ c.toNat ∧ c.toNat ≤ 0x7e) ∧ c ∉ rareChars := by
  unfold pairKept
  simp

/-- the code words of the pairtree encoding -/
def pairWord (c : Char) : Str := (pairEncode1 c).map pairConvert

theorem pairEncode_eq (id : Str) : pairEncode id = id.flatMap pairWord := by
  unfold pairEncode
  rw [List.map_flatMap]; rfl

theorem lowHex_convert {c : Char} (h : LowHex c) : pairConvert c = c := by
  unfold LowHex at h
  unfold pairConvert
  rw [if_neg, if_neg, if_neg] <;> (rintro rfl; revert h; decide)

theorem map_convert_hex (n : Nat) : (hexNat n).map pairConvert = hexNat n := by
  conv_rhs => rw [← List.map_id (hexNat n)]
  apply List.map_congr_left
  intro c hc
  exact lowHex_convert (hexNat_lowHex n c hc)

theorem pairWord_kept {c : Char} (h : pairKept c = true) : pairWord c = [pairConvert c] := by
  unfold pairWord pairEncode1; rw [if_pos h]; rfl

theorem pairWord_hex {c : Char} (h : ¬ pairKept c = true) : pairWord c = '^' :: hexNat c.toNat := by
  unfold pairWord pairEncode1; rw [if_neg h, List.map_cons, map_convert_hex]; rfl

theorem pairConvert_cases (c : Char) :
    (c = '/' ∧ pairConvert c = '=') ∨ (c = ':' ∧ pairConvert c = '+') ∨ (c = '.' ∧ pairConvert c = ',') ∨
      (c ≠ '/' ∧ c ≠ ':' ∧ c ≠ '.' ∧ pairConvert c = c) := by
  unfold pairConvert
  by_cases h1 : c = '/'
  · simp [h1]
  · by_cases h2 : c = ':'
    · simp [h2]
    · by_cases h3 : c = '.'
      · simp [h3]
      · simp [h1, h2, h3]

theorem pairConvert_not_caret {c : Char} (h : pairKept c = true) : pairConvert c ≠ '^' := by
  rw [pairKept_iff] at h
  rcases pairConvert_cases c with ⟨_, e⟩ | ⟨_, e⟩ | ⟨_, e⟩ | ⟨_, _, _, e⟩ <;> rw [e]
  · decide
  · decide
  · decide
  · rintro rfl; exact h.2 (by decide)

theorem pairConvert_inj {a b : Char} (ha : pairKept a = true) (hb : pairKept b = true) (ha' : a ≠ ',') (hb' : b ≠ ',')
    (h : pairConvert a = pairConvert b) : a = b := by
  rw [pairKept_iff] at ha hb
  have key : ∀ c ∈ ['=', '+'], c ∈ rareChars := by decide
  rcases pairConvert_cases a with ⟨rfl, e⟩ | ⟨rfl, e⟩ | ⟨rfl, e⟩ | ⟨_, _, _, e⟩ <;>
    rcases pairConvert_cases b with ⟨rfl, e'⟩ | ⟨rfl, e'⟩ | ⟨rfl, e'⟩ | ⟨_, _, _, e'⟩ <;> (first | rfl | (rw [e, e'] at h)) <;>
    first
    | rfl
    | exact absurd h (by decide)
    | (exact h)
    | (subst h; exact absurd (key _ (by decide)) hb.2)
    | (subst h; exact absurd (key _ (by decide)) ha.2)
    | exact absurd h.symm hb'
    | exact absurd h ha'

theorem pairWord_ne_nil (c : Char) : pairWord c ≠ [] := by
  by_cases h : pairKept c = true
  · rw [pairWord_kept h]; simp
  · rw [pairWord_hex h]; simp

theorem pairEncode_inj {s t : Str} (hs : ∀ c ∈ s, 16 ≤ c.toNat ∧ c.toNat < 256 ∧ c ≠ ',')
    (ht : ∀ c ∈ t, 16 ≤ c.toNat ∧ c.toNat < 256 ∧ c ≠ ',') (h : pairEncode s = pairEncode t) : s = t := by
  rw [pairEncode_eq, pairEncode_eq] at h
  refine flatMap_inj (P := fun c => 16 ≤ c.toNat ∧ c.toNat < 256 ∧ c ≠ ',') (fun c _ => pairWord_ne_nil c) ?_ s t hs ht h
  intro a b r u ha hb he
  by_cases h1 : pairKept a = true <;> by_cases h2 : pairKept b = true
  · rw [pairWord_kept h1, pairWord_kept h2] at he
    simp only [List.cons_append, List.nil_append, List.cons.injEq] at he
    exact ⟨pairConvert_inj h1 h2 ha.2.2 hb.2.2 he.1, he.2⟩
  · rw [pairWord_kept h1, pairWord_hex h2] at he
    simp only [List.cons_append, List.nil_append, List.cons.injEq] at he
    exact absurd he.1 (pairConvert_not_caret h1)
  · rw [pairWord_hex h1, pairWord_kept h2] at he
    simp only [List.cons_append, List.nil_append, List.cons.injEq] at he
    exact absurd he.1.symm (pairConvert_not_caret h2)
  · rw [pairWord_hex h1, pairWord_hex h2] at he
    simp only [List.cons_append, List.cons.injEq, true_and] at he
    obtain ⟨e1, e2⟩ := hexNat_two_inj ha.1 ha.2.1 hb.1 hb.2.1 he
    exact ⟨char_toNat_inj e1, e2⟩

/-- no slash or dot in encoded ids -/
theorem pairEncode_chars (id : Str) : '/' ∉ pairEncode id ∧ '.' ∉ pairEncode id := by
  rw [pairEncode_eq]
  have key : ∀ x, (x = '/' ∨ x = '.') → ∀ c, x ∉ pairWord c := by
    intro x hx c hc
    by_cases h : pairKept c = true
    · rw [pairWord_kept h] at hc
      simp only [List.mem_singleton] at hc
      rcases pairConvert_cases c with ⟨h1, e⟩ | ⟨h1, e⟩ | ⟨h1, e⟩ | ⟨h1, h2, h3, e⟩ <;> rw [e] at hc
      · rcases hx with rfl | rfl <;> exact absurd hc (by decide)
      · rcases hx with rfl | rfl <;> exact absurd hc (by decide)
      · rcases hx with rfl | rfl <;> exact absurd hc (by decide)
      · rcases hx with rfl | rfl
        · exact h1 hc.symm
        · exact h3 hc.symm
    · rw [pairWord_hex h] at hc
      rcases List.mem_cons.1 hc with hc | hc
      · rcases hx with rfl | rfl <;> exact absurd hc (by decide)
      · have := hexNat_lowHex _ _ hc
        rcases hx with rfl | rfl <;> (revert this; unfold LowHex; decide)
  constructor
  · intro h; obtain ⟨c, _, hc⟩ := List.mem_flatMap.1 h; exact key _ (.inl rfl) c hc
  · intro h; obtain ⟨c, _, hc⟩ := List.mem_flatMap.1 h; exact key _ (.inr rfl) c hc

end Gocfl
