import Verif.Model.StoreLemmas
import Verif.Props.Validate
import Mathlib.Data.List.TakeWhile

/-!
# Auxiliary facts about sidecar files
-/

namespace Gocfl

/-! ## Reading a sidecar -/

/-- The text of a sidecar naming the digest `dg`: hex digits, white space, `inventory.json` (the dot matching any
character but newline), surrounded by white space. -/
def SidecarText (s dg : Str) : Prop :=
  ∃ l m r c, s = l ++ (dg ++ (m ++ ("inventory".toList ++ c :: "json".toList))) ++ r ∧
    (∀ x ∈ l, isSpaceChar x = true) ∧ (∀ x ∈ r, isSpaceChar x = true) ∧
    m ≠ [] ∧ (∀ x ∈ m, isReSpace x = true) ∧ dg ≠ [] ∧ (∀ x ∈ dg, isHexChar x = true) ∧ c ≠ '\n'

theorem span_append {p : Char → Bool} {l y : Str} (hl : ∀ x ∈ l, p x = true) (hy : ∀ x, y.head? = some x → p x = false) :
    (l ++ y).takeWhile p = l ∧ (l ++ y).dropWhile p = y := by
  induction l with
  | nil =>
    cases y with
    | nil => exact ⟨rfl, rfl⟩
    | cons a y => simp [hy a rfl]
  | cons a l ih =>
    have ha := hl a (by simp)
    obtain ⟨h1, h2⟩ := ih (fun x hx => hl x (by simp [hx]))
    rw [List.cons_append, List.takeWhile_cons_of_pos ha, List.dropWhile_cons_of_pos ha, h1, h2]
    exact ⟨rfl, rfl⟩

theorem dropWhile_head {p : Char → Bool} (s : Str) : ∀ x, (s.dropWhile p).head? = some x → p x = false := by
  induction s with
  | nil => simp
  | cons a s ih =>
    intro x hx
    by_cases ha : p a = true
    · rw [List.dropWhile_cons_of_pos ha] at hx; exact ih x hx
    · rw [List.dropWhile_cons_of_neg ha] at hx
      cases hx; simpa using ha

theorem takeWhile_all {p : Char → Bool} (s : Str) : ∀ x ∈ s.takeWhile p, p x = true := by
  intro x hx
  exact (List.mem_takeWhile_imp hx)

theorem trimSpace_spec (s : Str) : ∃ l r, s = l ++ trimSpace s ++ r ∧ (∀ x ∈ l, isSpaceChar x = true) ∧
    (∀ x ∈ r, isSpaceChar x = true) := by
  refine ⟨s.takeWhile isSpaceChar, ((s.dropWhile isSpaceChar).reverse.takeWhile isSpaceChar).reverse, ?_,
    takeWhile_all s, ?_⟩
  · unfold trimSpace
    have h2 : ((s.dropWhile isSpaceChar).reverse.dropWhile isSpaceChar).reverse ++
        ((s.dropWhile isSpaceChar).reverse.takeWhile isSpaceChar).reverse = s.dropWhile isSpaceChar := by
      rw [← List.reverse_append, List.takeWhile_append_dropWhile, List.reverse_reverse]
    rw [List.append_assoc, h2, List.takeWhile_append_dropWhile]
  · intro x hx
    exact takeWhile_all _ x (List.mem_reverse.1 hx)

theorem trimSpace_eq {l x r : Str} (hl : ∀ c ∈ l, isSpaceChar c = true) (hr : ∀ c ∈ r, isSpaceChar c = true)
    (h1 : ∀ c, x.head? = some c → isSpaceChar c = false) (h2 : ∀ c, x.getLast? = some c → isSpaceChar c = false)
    (hne : x ≠ []) : trimSpace (l ++ x ++ r) = x := by
  unfold trimSpace
  have e1 : (l ++ x ++ r).dropWhile isSpaceChar = x ++ r := by
    rw [List.append_assoc]
    refine (span_append hl ?_).2
    intro c hc
    apply h1
    cases x with
    | nil => exact absurd rfl hne
    | cons a x => exact hc
  rw [e1, List.reverse_append]
  have e2 : (r.reverse ++ x.reverse).dropWhile isSpaceChar = x.reverse := by
    refine (span_append (fun c hc => hr c (List.mem_reverse.1 hc)) ?_).2
    intro c hc
    rw [List.head?_reverse] at hc
    exact h2 c hc
  rw [e2, List.reverse_reverse]

theorem isInventoryName_iff {s : Str} :
    isInventoryName s = true ↔ ∃ c, c ≠ '\n' ∧ s = "inventory".toList ++ c :: "json".toList := by
  unfold isInventoryName
  constructor
  · intro h
    split at h
    · rename_i c r hd
      simp only [Bool.and_eq_true, decide_eq_true_eq] at h
      obtain ⟨⟨h1, h2⟩, h3⟩ := h
      refine ⟨c, h2, ?_⟩
      rw [← h1, ← h3, ← hd, List.take_append_drop]
    · cases h
  · rintro ⟨c, hc, rfl⟩
    have e : ("inventory".toList ++ c :: "json".toList).drop 9 = c :: "json".toList := rfl
    have e' : ("inventory".toList ++ c :: "json".toList).take 9 = "inventory".toList := rfl
    rw [e, e']
    simp [hc]

theorem isDigit_iff {c : Char} : c.isDigit = true ↔ 48 ≤ c.toNat ∧ c.toNat ≤ 57 := by
  unfold Char.isDigit
  simp only [Bool.and_eq_true, decide_eq_true_eq, ge_iff_le, UInt32.le_iff_toNat_le]
  exact Iff.rfl

theorem isHexChar_iff {c : Char} : isHexChar c = true ↔ (48 ≤ c.toNat ∧ c.toNat ≤ 57) ∨
    (97 ≤ c.toNat ∧ c.toNat ≤ 102) ∨ (65 ≤ c.toNat ∧ c.toNat ≤ 70) := by
  unfold isHexChar
  rw [Bool.or_eq_true, Bool.or_eq_true, isDigit_iff, decide_eq_true_eq, decide_eq_true_eq, or_assoc]

theorem reSpace_not_hex {c : Char} (h : isReSpace c = true) : isHexChar c = false := by
  unfold isReSpace at h
  simp only [Bool.or_eq_true, decide_eq_true_eq] at h
  by_contra hc
  have hc : isHexChar c = true := by simpa using hc
  rw [isHexChar_iff] at hc
  omega

theorem hex_not_space {c : Char} (h : isHexChar c = true) : isSpaceChar c = false := by
  by_contra hc
  have hc : isSpaceChar c = true := by simpa using hc
  unfold isSpaceChar at hc
  simp only [Bool.or_eq_true, decide_eq_true_eq] at hc
  rw [isHexChar_iff] at h
  omega

theorem sidecarMatch_eq {dg m : Str} {c : Char} (hm : m ≠ []) (hms : ∀ x ∈ m, isReSpace x = true)
    (hd : dg ≠ []) (hds : ∀ x ∈ dg, isHexChar x = true) (hc : c ≠ '\n') :
    sidecarMatch (dg ++ (m ++ ("inventory".toList ++ c :: "json".toList))) = some dg := by
  have h1 := span_append (p := isHexChar) (l := dg) (y := m ++ ("inventory".toList ++ c :: "json".toList)) hds (by
    intro x hx
    cases m with
    | nil => exact absurd rfl hm
    | cons a m => cases hx; exact reSpace_not_hex (hms _ (by simp)))
  have h2 := span_append (p := isReSpace) (l := m) (y := "inventory".toList ++ c :: "json".toList) hms (by
    intro x hx; cases hx; rfl)
  unfold sidecarMatch
  simp only [h1.1, h1.2, h2.1, h2.2]
  rw [if_neg hd, if_neg hm, if_pos (isInventoryName_iff.2 ⟨c, hc, rfl⟩)]

theorem sidecarMatch_iff {s dg : Str} : sidecarMatch (trimSpace s) = some dg ↔ SidecarText s dg := by
  constructor
  · intro h
    obtain ⟨l, r, hs, hl, hr⟩ := trimSpace_spec s
    generalize trimSpace s = x at h hs
    unfold sidecarMatch at h
    simp only at h
    split at h
    · cases h
    · rename_i h1
      split at h
      · cases h
      · rename_i h2
        split at h
        · rename_i h3
          cases h
          obtain ⟨c, hc, e⟩ := isInventoryName_iff.1 h3
          refine ⟨l, _, r, c, ?_, hl, hr, h2, takeWhile_all _, h1, takeWhile_all _, hc⟩
          rw [← e, List.takeWhile_append_dropWhile, List.takeWhile_append_dropWhile]
          exact hs
        · cases h
  · rintro ⟨l, m, r, c, rfl, hl, hr, hm, hms, hd, hds, hc⟩
    rw [trimSpace_eq hl hr]
    · exact sidecarMatch_eq hm hms hd hds hc
    · intro x hx
      cases dg with
      | nil => exact absurd rfl hd
      | cons a dg => cases hx; exact hex_not_space (hds _ (by simp))
    · intro x hx
      rw [← List.append_assoc, ← List.append_assoc, List.getLast?_append] at hx
      have : (c :: "json".toList).getLast? = some 'n' := rfl
      rw [this] at hx
      cases hx; rfl
    · cases dg with
      | nil => exact absurd rfl hd
      | cons a dg => simp

theorem sidecarText_unique {s d d' : Str} (h : SidecarText s d) (h' : SidecarText s d') : d = d' := by
  have h1 := sidecarMatch_iff.2 h
  rw [sidecarMatch_iff.2 h'] at h1
  cases h1; rfl

/-! ## The sidecar the program writes -/

theorem bytesStr_asBytes {s : Str} (h : ∀ c ∈ s, c.toNat < 256) : bytesStr (asBytes s) = s := by
  unfold bytesStr asBytes
  rw [List.map_map]
  conv_rhs => rw [← List.map_id s]
  apply List.map_congr_left
  intro c hc
  have := h c hc
  simp only [Function.comp, id]
  have e : c.toNat.toUInt8.toNat = c.toNat := by
    rw [Nat.toUInt8_eq, UInt8.toNat_ofNat']
    exact Nat.mod_eq_of_lt this
  rw [e, Char.ofNat_toNat]

theorem hex_lt {c : Char} (h : isHexChar c = true) : c.toNat < 256 := by
  rw [isHexChar_iff] at h
  omega

theorem sidecarText_ok {dg : Str} (hd : dg ≠ []) (hds : ∀ x ∈ dg, isHexChar x = true) :
    SidecarText (bytesStr (sidecarText dg)) dg := by
  unfold sidecarText
  rw [bytesStr_asBytes]
  · refine ⟨[], [' '], [], '.', ?_, by simp, by simp, by simp, by decide, hd, hds, by decide⟩
    rw [List.nil_append, List.append_nil]
    rfl
  · intro c hc
    rcases List.mem_append.1 hc with hc | hc
    · exact hex_lt (hds c hc)
    · have : ∀ c ∈ " inventory.json".toList, c.toNat < 256 := by decide
      exact this c hc

/-! ## Findings of `Finalize` are never about the sidecar -/

def sideCode (c : Code) : Bool := decide (c = .E 58) || decide (c = .E 60) || decide (c = .E 61)

/-- no finding of the list is about the sidecar -/
def noSide (l : List Fnd) : Bool := l.all (fun x => !sideCode x.code)

theorem noSide_append (a b : List Fnd) : noSide (a ++ b) = (noSide a && noSide b) := List.all_append

theorem noSide_collect {α : Type} {f : α → Res (List Fnd)} {l : List α} {g : List Fnd} (h : collect f l = .ok g)
    (hf : ∀ a gs, f a = .ok gs → noSide gs = true) : noSide g = true := by
  unfold noSide
  rw [List.all_eq_true]
  intro x hx
  obtain ⟨a, _, gs, h1, h2⟩ := (mem_collect h x).1 hx
  exact List.all_eq_true.1 (hf a gs h1) x h2

theorem noSide_map {α : Type} (l : List α) (f : α → Fnd) (h : ∀ a, sideCode (f a).code = false) :
    noSide (l.map f) = true := by
  unfold noSide
  rw [List.all_map, List.all_eq_true]
  intro x _
  simp [h x]

theorem noSide_finalizeVersion {m : VMeta} {ver : Str} {g : List Fnd} (h : finalizeVersion m ver = .ok g) :
    noSide g = true := by
  unfold finalizeVersion at h
  split at h
  · cases h; rfl
  · split at h
    · cases h
    · cases h
      rw [noSide_append, Bool.and_eq_true]
      constructor <;> split <;> rfl

theorem noSide_checkPath {c1 c2 : Nat} (h1 : sideCode (.E c1) = false) (h2 : sideCode (.E c2) = false) {p : Str}
    {g : List Fnd} (h : checkPath c1 c2 p = .ok g) : noSide g = true := by
  unfold checkPath at h
  split at h
  · cases h
  · cases h
    rw [noSide_append, Bool.and_eq_true]
    constructor
    · split
      · simp [noSide, err, h1]
      · rfl
    · exact noSide_map _ _ (fun _ => h2)

theorem noSide_metaFnd {env : Env} {m : VMeta} {ver : Str} {v : Version} {g : List Fnd}
    (h : metaFnd env m ver v = .ok g) : noSide g = true := by
  unfold metaFnd at h
  split at h
  · cases h
  · cases h
    simp only [noSide_append, Bool.and_eq_true]
    refine ⟨⟨⟨⟨⟨⟨?_, ?_⟩, ?_⟩, ?_⟩, ?_⟩, ?_⟩, ?_⟩
    · split <;> rfl
    · split <;> rfl
    · split <;> rfl
    · split <;> rfl
    · split
      · rfl
      · split <;> rfl
    · split <;> rfl
    · split <;> rfl

theorem noSide_stateEntry {man : DMap} {ver : Str} {e : Str × List Str} {g : List Fnd}
    (h : stateEntryFnd man ver e = .ok g) : noSide g = true := by
  unfold stateEntryFnd at h
  simp only at h
  obtain ⟨x, hx, h⟩ := res_bind_eq_ok.1 h
  cases h
  rw [noSide_append, Bool.and_eq_true]
  refine ⟨?_, noSide_collect hx (fun a gs => noSide_checkPath rfl rfl)⟩
  split
  · rfl
  · split <;> rfl

theorem noSide_versionFnd {env : Env} {r : RawInv} {e : Str × Version} {g : List Fnd}
    (h : versionFnd env r e = .ok g) : noSide g = true := by
  unfold versionFnd at h
  split at h
  · cases h; rfl
  · obtain ⟨x, hx, h⟩ := res_bind_eq_ok.1 h
    obtain ⟨y, hy, h⟩ := res_bind_eq_ok.1 h
    cases h
    rw [noSide_append, noSide_metaFnd hx, noSide_collect hy (fun a gs => noSide_stateEntry)]
    rfl

theorem noSide_padFold (l : List Str) : ∀ pad, noSide (padFold pad l).2 = true := by
  induction l with
  | nil => intro pad; rfl
  | cons ver l ih =>
    intro pad
    unfold padFold
    split
    · exact ih pad
    · simp only
      rw [noSide_append, ih, Bool.and_true]
      unfold padStep
      split
      · split
        · rfl
        · split <;> rfl
      · split
        · split
          · rfl
          · split <;> rfl
        · rfl

theorem noSide_manifestDigest (used : List Str) (l : List Str) : ∀ seen, noSide (manifestDigestFnd used seen l) = true := by
  induction l with
  | nil => intro s; rfl
  | cons d l ih =>
    intro s
    unfold manifestDigestFnd
    split
    · exact ih s
    · rw [noSide_append, ih, Bool.and_true]; split <;> rfl

theorem noSide_fixityDigest (alg : Str) (l : List Str) : ∀ seen, noSide (fixityDigestFnd alg seen l) = true := by
  induction l with
  | nil => intro s; rfl
  | cons d l ih =>
    intro s
    unfold fixityDigestFnd
    split
    · exact ih s
    · exact ih _

theorem noSide_check {env : Env} {r : RawInv} {g : List Fnd} (h : check env r = .ok g) : noSide g = true := by
  unfold check at h
  obtain ⟨a, ha, h⟩ := res_bind_eq_ok.1 h
  obtain ⟨b, hb, h⟩ := res_bind_eq_ok.1 h
  obtain ⟨c, hc, h⟩ := res_bind_eq_ok.1 h
  cases h
  simp only [noSide_append, Bool.and_eq_true]
  refine ⟨⟨⟨?_, ?_⟩, ?_⟩, ?_⟩
  · unfold checkVersions at ha
    obtain ⟨x, hx, ha⟩ := res_bind_eq_ok.1 ha
    split at ha
    · cases ha
    · obtain ⟨y, hy, ha⟩ := res_bind_eq_ok.1 ha
      cases ha
      simp only [noSide_append, Bool.and_eq_true]
      refine ⟨⟨⟨⟨⟨⟨?_, noSide_padFold _ _⟩, noSide_collect hx (fun a gs => noSide_versionFnd)⟩, ?_⟩, ?_⟩, ?_⟩, ?_⟩
      · split <;> rfl
      · unfold sequenceFnd; split <;> rfl
      · split <;> rfl
      · unfold headFnd
        rw [noSide_append, Bool.and_eq_true]
        constructor <;> split <;> rfl
      · refine noSide_collect hy (fun a gs hg => ?_)
        unfold logicalVersionFnd at hg
        split at hg
        · cases hg
        · cases hg; exact noSide_map _ _ (fun _ => rfl)
  · unfold checkManifest at hb
    obtain ⟨x, hx, hb⟩ := res_bind_eq_ok.1 hb
    cases hb
    simp only [noSide_append, Bool.and_eq_true]
    exact ⟨⟨noSide_manifestDigest _ _ _, noSide_collect hx (fun a gs => noSide_checkPath rfl rfl)⟩,
      noSide_map _ _ (fun _ => rfl)⟩
  · refine noSide_collect hc (fun a gs hg => ?_)
    obtain ⟨x, hx, hg⟩ := res_bind_eq_ok.1 hg
    cases hg
    rw [noSide_append, noSide_fixityDigest, noSide_collect hx (fun a gs => noSide_checkPath rfl rfl)]
    rfl
  · unfold checkScalars
    simp only [noSide_append, Bool.and_eq_true]
    refine ⟨⟨⟨⟨⟨⟨?_, ?_⟩, ?_⟩, ?_⟩, ?_⟩, ?_⟩, ?_⟩
    · split <;> rfl
    · split <;> rfl
    · split
      · rfl
      · split <;> rfl
    · split <;> rfl
    · split <;> rfl
    · split
      · rfl
      · split <;> rfl
    · split <;> rfl

theorem noSide_finalize {env : Env} {r : RawInv} {x : Inv × List Fnd} (h : finalize env r = .ok x) :
    noSide x.2 = true := by
  unfold finalize at h
  obtain ⟨a, ha, h⟩ := res_bind_eq_ok.1 h
  obtain ⟨b, hb, h⟩ := res_bind_eq_ok.1 h
  cases h
  simp only [noSide_append, Bool.and_eq_true]
  refine ⟨⟨⟨?_, ?_⟩, noSide_collect ha (fun a gs => noSide_finalizeVersion)⟩, noSide_check hb⟩
  · split <;> rfl
  · split <;> rfl

theorem not_hasCode_of_noSide {l : List Fnd} (h : noSide l = true) {c : Code} (hc : sideCode c = true) :
    ¬ HasCode l c := by
  rintro ⟨x, hx, rfl⟩
  have := List.all_eq_true.1 h x hx
  rw [hc] at this
  cases this

theorem hasCode_append {a b : List Fnd} {c : Code} : HasCode (a ++ b) c ↔ HasCode a c ∨ HasCode b c := by
  unfold HasCode
  constructor
  · rintro ⟨x, hx, h⟩
    rcases List.mem_append.1 hx with hx | hx
    · exact Or.inl ⟨x, hx, h⟩
    · exact Or.inr ⟨x, hx, h⟩
  · rintro (⟨x, hx, h⟩ | ⟨x, hx, h⟩)
    · exact ⟨x, List.mem_append.2 (Or.inl hx), h⟩
    · exact ⟨x, List.mem_append.2 (Or.inr hx), h⟩

end Gocfl
