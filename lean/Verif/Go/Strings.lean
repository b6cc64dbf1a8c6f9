import Verif.Go.Basic
import Mathlib.Data.List.Sort

/-!
# Go `strings`, `strconv`, `fmt`, `sort`/`slices` functions used by the model
-/

namespace Gocfl

/-- `strings.HasPrefix(s, p)` -/
def hasPrefix (s p : Str) : Bool := p.isPrefixOf s

/-- `strings.TrimPrefix(s, p)` -/
def trimPrefix (s p : Str) : Str := if hasPrefix s p then s.drop p.length else s

/-- `strings.TrimSuffix(s, x)` -/
def trimSuffix (s x : Str) : Str :=
  if x.isSuffixOf s then s.take (s.length - x.length) else s

/-- `strings.TrimLeft(s, cutset)` -/
def trimLeft (s cutset : Str) : Str := s.dropWhile (fun c => cutset.contains c)

/-- `strings.TrimRight(s, cutset)` -/
def trimRight (s cutset : Str) : Str := (trimLeft s.reverse cutset).reverse

/-- `strings.ToLower` restricted to ASCII letters (simplification: other scripts unchanged; the
strings lowered in the modelled code are version names and hexadecimal digests). -/
def toLower (s : Str) : Str := s.map Char.toLower

/-- `strings.Split(s, sep)` for a one-character separator; `Split("", sep) = [""]`. -/
def splitOn (sep : Char) : Str → List Str
  | [] => [[]]
  | c :: cs =>
    if c = sep then [] :: splitOn sep cs
    else match splitOn sep cs with
      | [] => [[c]]
      | h :: t => (c :: h) :: t

/-- `strings.Join(parts, sep)` for a one-character separator. -/
def joinWith (sep : Char) : List Str → Str
  | [] => []
  | [p] => p
  | p :: q :: r => p ++ sep :: joinWith sep (q :: r)

/-- digits only, at least one: `[0-9]+` -/
def isDigits (s : Str) : Bool := !s.isEmpty && s.all Char.isDigit

/-- the value of a digit string -/
def digitsVal (s : Str) : Nat := Nat.ofDigitChars 10 s 0

/-- `strconv.Atoi` (without the 64 bit range check, see DESIGN.md). -/
def atoi : Str → Option Int
  | '+' :: r => if isDigits r then some (digitsVal r : Int) else none
  | '-' :: r => if isDigits r then some (-(digitsVal r : Int)) else none
  | r => if isDigits r then some (digitsVal r : Int) else none

/-- `fmt.Sprintf("%d", n)` for a natural number -/
def fmtNat (n : Nat) : Str := Nat.toDigits 10 n

/-- `fmt.Sprintf("%d", n)` -/
def fmtInt : Int → Str
  | .ofNat n => fmtNat n
  | .negSucc n => '-' :: fmtNat (n + 1)

/-- `fmt.Sprintf("%0<w>d", n)`: zero padding to total width `w`, sign first. -/
def fmtIntPad (w : Nat) : Int → Str
  | .ofNat n => List.replicate (w - (fmtNat n).length) '0' ++ fmtNat n
  | .negSucc n => '-' :: (List.replicate (w - 1 - (fmtNat (n + 1)).length) '0' ++ fmtNat (n + 1))

/-! ## String order (byte-wise order of valid UTF-8 is code point order) -/

/-- `a <= b` on Go strings -/
def strLe : Str → Str → Bool
  | [], _ => true
  | _ :: _, [] => false
  | a :: as, b :: bs => if a.toNat = b.toNat then strLe as bs else decide (a.toNat < b.toNat)

/-- `a < b` on Go strings -/
def strLt (a b : Str) : Bool := !strLe b a

theorem strLe_refl (a : Str) : strLe a a = true := by
  induction a with
  | nil => rfl
  | cons c a ih => simp [strLe, ih]

theorem strLe_total (a b : Str) : strLe a b = true ∨ strLe b a = true := by
  induction a generalizing b with
  | nil => simp [strLe]
  | cons c a ih =>
    cases b with
    | nil => simp [strLe]
    | cons d b =>
      simp only [strLe]
      by_cases h : c.toNat = d.toNat
      · simp [h, ih b]
      · simp only [h, if_false, Ne.symm h, decide_eq_true_eq]; omega

theorem strLe_trans {a b c : Str} (h1 : strLe a b = true) (h2 : strLe b c = true) :
    strLe a c = true := by
  induction a generalizing b c with
  | nil => simp [strLe]
  | cons x a ih =>
    cases b with
    | nil => simp [strLe] at h1
    | cons y b =>
      cases c with
      | nil => simp [strLe] at h2
      | cons z c =>
        simp only [strLe] at h1 h2 ⊢
        split at h1
        · rename_i e1
          split at h2
          · rename_i e2
            simp only [e1, e2, if_true]; exact ih h1 h2
          · rename_i e2
            rw [if_neg (by omega)]; simp at h2 ⊢; omega
        · rename_i e1
          simp at h1
          split at h2
          · rename_i e2
            rw [if_neg (by omega)]; simp; omega
          · simp at h2
            rw [if_neg (by omega)]; simp; omega

theorem char_toNat_inj {a b : Char} (h : a.toNat = b.toNat) : a = b := by
  apply Char.ext; exact UInt32.toNat_inj.1 h

theorem strLe_antisymm {a b : Str} (h1 : strLe a b = true) (h2 : strLe b a = true) : a = b := by
  induction a generalizing b with
  | nil => cases b with
    | nil => rfl
    | cons => simp [strLe] at h2
  | cons x a ih =>
    cases b with
    | nil => simp [strLe] at h1
    | cons y b =>
      simp only [strLe] at h1 h2
      by_cases e : x.toNat = y.toNat
      · simp only [e, if_true] at h1 h2
        rw [char_toNat_inj e, ih h1 h2]
      · simp only [e, Ne.symm e, if_false, decide_eq_true_eq] at h1 h2; omega

/-! ## Sorting: for a total order every correct sort returns the same list, so insertion sort stands
for `sort.Ints`, `slices.Sort`. -/

section Sorting
variable {α : Type} (le : α → α → Bool)

def insertBy (x : α) : List α → List α
  | [] => [x]
  | y :: ys => if le x y then x :: y :: ys else y :: insertBy x ys

def sortBy : List α → List α
  | [] => []
  | x :: xs => insertBy le x (sortBy xs)

theorem insertBy_perm (x : α) (l : List α) : (insertBy le x l).Perm (x :: l) := by
  induction l with
  | nil => simp [insertBy]
  | cons y ys ih =>
    simp only [insertBy]
    split
    · exact List.Perm.refl _
    · exact (List.Perm.cons y ih).trans (List.Perm.swap x y ys)

theorem sortBy_perm (l : List α) : (sortBy le l).Perm l := by
  induction l with
  | nil => simp [sortBy]
  | cons x xs ih => exact (insertBy_perm le x _).trans (ih.cons x)

theorem insertBy_sorted (htot : ∀ a b, le a b = true ∨ le b a = true)
    (htr : ∀ a b c, le a b = true → le b c = true → le a c = true)
    (x : α) (l : List α) (h : l.Pairwise (fun a b => le a b = true)) :
    (insertBy le x l).Pairwise (fun a b => le a b = true) := by
  induction l with
  | nil => simp [insertBy]
  | cons y ys ih =>
    have hy := List.pairwise_cons.1 h
    simp only [insertBy]
    split
    · rename_i hxy
      refine List.pairwise_cons.2 ⟨?_, h⟩
      intro a ha
      rcases List.mem_cons.1 ha with rfl | ha
      · exact hxy
      · exact htr _ _ _ hxy (hy.1 a ha)
    · rename_i hxy
      have hyx : le y x = true := (htot x y).resolve_left (by simpa using hxy)
      refine List.pairwise_cons.2 ⟨?_, ih hy.2⟩
      intro a ha
      rcases List.mem_cons.1 ((insertBy_perm le x ys).mem_iff.1 ha) with rfl | ha
      · exact hyx
      · exact hy.1 a ha

theorem sortBy_sorted (htot : ∀ a b, le a b = true ∨ le b a = true)
    (htr : ∀ a b c, le a b = true → le b c = true → le a c = true) (l : List α) :
    (sortBy le l).Pairwise (fun a b => le a b = true) := by
  induction l with
  | nil => simp [sortBy]
  | cons x xs ih => exact insertBy_sorted le htot htr x _ ih

theorem sorted_perm_unique (hanti : ∀ a b, le a b = true → le b a = true → a = b)
    {l l' : List α} (h : l.Pairwise (fun a b => le a b = true))
    (h' : l'.Pairwise (fun a b => le a b = true)) (hp : l.Perm l') : l = l' := by
  induction l generalizing l' with
  | nil => exact (List.Perm.nil_eq hp)
  | cons x xs ih =>
    cases l' with
    | nil => exact absurd hp.symm (by simp)
    | cons y ys =>
      have hx := List.pairwise_cons.1 h
      have hy := List.pairwise_cons.1 h'
      have hxy : x = y := by
        have hxin : x ∈ y :: ys := hp.mem_iff.1 (by simp)
        have hyin : y ∈ x :: xs := hp.mem_iff.2 (by simp)
        rcases List.mem_cons.1 hxin with e | e
        · exact e
        · rcases List.mem_cons.1 hyin with e2 | e2
          · exact e2.symm
          · exact hanti _ _ (hx.1 y e2) (hy.1 x e)
      subst hxy
      rw [ih hx.2 hy.2 ((List.perm_cons x).1 hp)]

theorem sortBy_perm_eq (htot : ∀ a b, le a b = true ∨ le b a = true)
    (htr : ∀ a b c, le a b = true → le b c = true → le a c = true)
    (hanti : ∀ a b, le a b = true → le b a = true → a = b)
    {l l' : List α} (hp : l.Perm l') : sortBy le l = sortBy le l' :=
  sorted_perm_unique le hanti (sortBy_sorted le htot htr l) (sortBy_sorted le htot htr l')
    ((sortBy_perm le l).trans (hp.trans (sortBy_perm le l').symm))

end Sorting

/-- `slices.Sort` on strings -/
def sortStr (l : List Str) : List Str := sortBy strLe l

theorem sortStr_perm (l : List Str) : (sortStr l).Perm l := sortBy_perm _ l
theorem sortStr_sorted (l : List Str) : (sortStr l).Pairwise (fun a b => strLe a b = true) :=
  sortBy_sorted _ strLe_total (fun _ _ _ => strLe_trans) l
theorem mem_sortStr {a : Str} {l : List Str} : a ∈ sortStr l ↔ a ∈ l := (sortStr_perm l).mem_iff
theorem sortStr_perm_eq {l l' : List Str} (hp : l.Perm l') : sortStr l = sortStr l' :=
  sortBy_perm_eq _ strLe_total (fun _ _ _ => strLe_trans) (fun _ _ => strLe_antisymm) hp

/-- `sort.Ints` / `slices.Sort` on ints -/
def sortInt (l : List Int) : List Int := sortBy (fun a b => decide (a ≤ b)) l

theorem sortInt_perm (l : List Int) : (sortInt l).Perm l := sortBy_perm _ l
theorem sortInt_sorted (l : List Int) : (sortInt l).Pairwise (· ≤ ·) := by
  have := sortBy_sorted (fun a b : Int => decide (a ≤ b))
    (by intro a b; simp; omega) (by intro a b c; simp; omega) l
  simpa [sortInt] using this

theorem sortInt_unique {l l' : List Int} (hp : l.Perm l') (hs : l'.Pairwise (· ≤ ·)) :
    sortInt l = l' := by
  refine sorted_perm_unique (fun a b : Int => decide (a ≤ b)) (by intro a b; simp; omega) ?_ ?_
    ((sortInt_perm l).trans hp)
  · simpa using sortInt_sorted l
  · simpa using hs

/-! ## `slices.BinarySearch` -/

/-- The loop of `slices.BinarySearch` (`golang.org/x/exp/slices`), `fuel` bounds the iterations. -/
def bsearchLoop (x : List Str) (t : Str) : Nat → Nat → Nat → Nat
  | 0, i, _ => i
  | f + 1, i, j =>
    if i < j then
      let h := (i + j) / 2
      if strLt (x.getD h []) t then bsearchLoop x t f (h + 1) j else bsearchLoop x t f i h
    else i

/-- `slices.BinarySearch(x, t)`: the insertion position and whether `t` is there. -/
def bsearch (x : List Str) (t : Str) : Nat × Bool :=
  let i := bsearchLoop x t (x.length + 1) 0 x.length
  (i, decide (i < x.length) && decide (x.getD i [] = t))

theorem bsearchLoop_spec (x : List Str) (t : Str)
    (hs : x.Pairwise (fun a b => strLe a b = true)) :
    ∀ f i j, i ≤ j → j ≤ x.length → j - i < f →
      (∀ k, k < i → strLt (x.getD k []) t = true) →
      (∀ k, j ≤ k → k < x.length → strLt (x.getD k []) t = false) →
      let r := bsearchLoop x t f i j
      r ≤ x.length ∧ (∀ k, k < r → strLt (x.getD k []) t = true) ∧
      (∀ k, r ≤ k → k < x.length → strLt (x.getD k []) t = false) := by
  intro f
  induction f with
  | zero => intro i j _ _ h; omega
  | succ f ih =>
    intro i j hij hj hf hlo hhi
    simp only [bsearchLoop]
    have hmono : ∀ a b, a ≤ b → b < x.length → strLe (x.getD a []) (x.getD b []) = true := by
      intro a b hab hb
      rcases Nat.lt_or_eq_of_le hab with h | h
      · have := List.pairwise_iff_getElem.1 hs a b (by omega) hb h
        simpa [List.getD_eq_getElem?_getD, List.getElem?_eq_getElem hb,
          List.getElem?_eq_getElem (show a < x.length by omega)] using this
      · subst h; exact strLe_refl _
    by_cases hlt : i < j
    · simp only [hlt, if_true]
      set h := (i + j) / 2 with hh
      have h1 : i ≤ h := by omega
      have h2 : h < j := by omega
      by_cases hc : strLt (x.getD h []) t = true
      · simp only [hc, if_true]
        refine ih (h + 1) j (by omega) hj (by omega) ?_ hhi
        intro k hk
        have hle := hmono k h (by omega) (by omega)
        simp only [strLt, Bool.not_eq_eq_eq_not, Bool.not_true] at hc ⊢
        by_contra hcc
        have hcc : strLe t (x.getD k []) = true := by simpa using hcc
        rw [strLe_trans hcc hle] at hc; exact absurd hc (by simp)
      · have hc : strLt (x.getD h []) t = false := by simpa using hc
        simp only [hc, Bool.false_eq_true, if_false]
        refine ih i h h1 (by omega) (by omega) hlo ?_
        intro k hk hkl
        have hle := hmono h k hk hkl
        simp only [strLt, Bool.not_eq_eq_eq_not, Bool.not_false] at hc ⊢
        exact strLe_trans hc hle
    · simp only [hlt, if_false]
      have : i = j := by omega
      subst this
      exact ⟨hj, hlo, hhi⟩

/-- On a sorted list binary search finds exactly the members. -/
theorem bsearch_found_iff (x : List Str) (t : Str)
    (hs : x.Pairwise (fun a b => strLe a b = true)) : (bsearch x t).2 = true ↔ t ∈ x := by
  have := bsearchLoop_spec x t hs (x.length + 1) 0 x.length (by omega) (by omega) (by omega)
    (by intro k hk; omega) (by intro k h1 h2; omega)
  simp only at this
  simp only [bsearch, Bool.and_eq_true, decide_eq_true_eq]
  generalize bsearchLoop x t (x.length + 1) 0 x.length = r at this
  obtain ⟨hr, hlo, hhi⟩ := this
  have getD_eq : ∀ k (h : k < x.length), x.getD k [] = x[k] := by
    intro k h; simp [List.getD_eq_getElem?_getD, List.getElem?_eq_getElem h]
  constructor
  · rintro ⟨h1, h2⟩
    rw [← h2, getD_eq r h1]; exact List.getElem_mem h1
  · intro hm
    obtain ⟨k, hk, rfl⟩ := List.getElem_of_mem hm
    have hkr : r ≤ k := by
      by_contra hc
      have := hlo k (by omega)
      rw [getD_eq k hk] at this
      simp [strLt, strLe_refl] at this
    refine ⟨by omega, ?_⟩
    have hlt : r < x.length := by omega
    rw [getD_eq r hlt]
    have h1 := hhi r (le_refl _) hlt
    rw [getD_eq r hlt] at h1
    simp only [strLt, Bool.not_eq_false'] at h1
    rcases Nat.lt_or_eq_of_le hkr with h | h
    · exact strLe_antisymm (List.pairwise_iff_getElem.1 hs r k hlt hk h) h1
    · subst h; rfl

/-! ## Version numbers as strings -/

theorem fmtNat_ne_nil (n : Nat) : fmtNat n ≠ [] := Nat.toDigits_ne_nil

theorem fmtNat_isDigits (n : Nat) : isDigits (fmtNat n) = true := by
  have h : (fmtNat n).isEmpty = false := by
    cases h : fmtNat n with
    | nil => exact absurd h (fmtNat_ne_nil n)
    | cons => rfl
  simp only [isDigits, h, Bool.not_false, Bool.true_and, List.all_eq_true]
  intro c hc
  exact Nat.isDigit_of_mem_toDigits (by omega) (by omega) hc

theorem digitsVal_fmtNat (n : Nat) : digitsVal (fmtNat n) = n := Nat.ofDigitChars_ten_toDigits

theorem fmtNat_inj {a b : Nat} (h : fmtNat a = fmtNat b) : a = b := by
  rw [← digitsVal_fmtNat a, ← digitsVal_fmtNat b, h]

/-- A positive number is written without leading zero. -/
theorem fmtNat_head_ne_zero {n : Nat} (hn : 0 < n) : ∃ c t, fmtNat n = c :: t ∧ c ≠ '0' := by
  induction n using Nat.strong_induction_on with
  | _ n ih =>
    by_cases h : n < 10
    · refine ⟨n.digitChar, [], Nat.toDigits_of_lt_base h, ?_⟩
      have : n = 1 ∨ n = 2 ∨ n = 3 ∨ n = 4 ∨ n = 5 ∨ n = 6 ∨ n = 7 ∨ n = 8 ∨ n = 9 := by omega
      rcases this with h | h | h | h | h | h | h | h | h <;> subst h <;> decide
    · obtain ⟨c, t, he, hc⟩ := ih (n / 10) (by omega) (by omega)
      refine ⟨c, t ++ [(n % 10).digitChar], ?_, hc⟩
      have := Nat.toDigits_of_base_le (b := 10) (n := n) (by omega) (by omega)
      unfold fmtNat at he ⊢
      rw [this, he]; rfl

theorem isDigit_ne_v {c : Char} (h : c.isDigit = true) : c ≠ 'v' := by
  rintro rfl; exact absurd h (by decide)

theorem isDigit_toLower {c : Char} (h : c.isDigit = true) : c.toLower = c := by
  have hr : ¬ (65 ≤ c.val ∧ c.val ≤ 90) := by
    simp only [Char.isDigit, Bool.and_eq_true, decide_eq_true_eq] at h
    intro hc
    have h1 := UInt32.le_iff_toNat_le.1 h.2
    have h2 := UInt32.le_iff_toNat_le.1 hc.1
    have e1 : '9'.val.toNat = 57 := rfl
    have e2 : (65 : UInt32).toNat = 65 := rfl
    omega
  unfold Char.toLower
  split
  · rename_i hc; exact absurd ⟨hc.1, hc.2⟩ hr
  · rfl

theorem toLower_digits {s : Str} (h : s.all Char.isDigit = true) : toLower s = s := by
  induction s with
  | nil => rfl
  | cons c s ih =>
    simp only [List.all_cons, Bool.and_eq_true] at h
    have := ih h.2
    unfold toLower at this ⊢
    rw [List.map_cons, isDigit_toLower h.1, this]

theorem fmtNat_all_digits (n : Nat) : (fmtNat n).all Char.isDigit = true := by
  have := fmtNat_isDigits n
  simp only [isDigits, Bool.and_eq_true] at this; exact this.2

/-- Trimming `v` and `0` in front of a positive number leaves the number. -/
theorem trimLeft_zeros_fmtNat (k : Nat) {n : Nat} (hn : 0 < n) :
    trimLeft (List.replicate k '0' ++ fmtNat n) "v0".toList = fmtNat n := by
  induction k with
  | zero =>
    obtain ⟨c, t, he, hc⟩ := fmtNat_head_ne_zero hn
    have hd : c.isDigit = true := by
      have := fmtNat_all_digits n; rw [he] at this; simp at this; exact this.1
    have hv := isDigit_ne_v hd
    simp [he, trimLeft, hc, hv]
  | succ k ih =>
    simpa [List.replicate_succ, trimLeft, List.dropWhile_cons] using ih

theorem atoi_fmtNat (n : Nat) : atoi (fmtNat n) = some (n : Int) := by
  have hd := fmtNat_isDigits n
  have hv := digitsVal_fmtNat n
  have hall := fmtNat_all_digits n
  cases h : fmtNat n with
  | nil => exact absurd h (fmtNat_ne_nil n)
  | cons c t =>
    rw [h] at hd hv hall
    simp only [List.all_cons, Bool.and_eq_true] at hall
    have h1 : c ≠ '+' := by rintro rfl; exact absurd hall.1 (by decide)
    have h2 : c ≠ '-' := by rintro rfl; exact absurd hall.1 (by decide)
    unfold atoi
    split
    · rename_i e; cases e; exact absurd rfl h1
    · rename_i e; cases e; exact absurd rfl h2
    · rw [if_pos hd, hv]

end Gocfl
