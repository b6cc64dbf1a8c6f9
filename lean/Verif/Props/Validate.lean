import Verif.Model.ValidateLemmas

/-!
# Properties of inventory validation (C34–C36)
-/

namespace Gocfl

/-- The findings contain one with this code. -/
def HasCode (fs : List Fnd) (c : Code) : Prop := ∃ x ∈ fs, x.code = c

/-- The name `k` denotes version number `n`: `v`, any number of zeros, the decimal number. -/
def NameOf (k : Str) (n : Nat) : Prop := 0 < n ∧ ∃ z, k = 'v' :: (List.replicate z '0' ++ fmtNat n)

theorem NameOf.verNumber {k : Str} {n : Nat} (h : NameOf k n) : verNumber k = some (n : Int) := by
  obtain ⟨hn, z, rfl⟩ := h
  have : trimLeft ('v' :: (List.replicate z '0' ++ fmtNat n)) "v0".toList =
      trimLeft (List.replicate z '0' ++ fmtNat n) "v0".toList := rfl
  unfold Gocfl.verNumber
  rw [this, trimLeft_zeros_fmtNat z hn, atoi_fmtNat]

theorem nameOf_verName (pad : Int) {n : Nat} (hn : 0 < n) : NameOf (verName pad (n : Int)) n := by
  obtain ⟨k, hk⟩ := verName_shape pad n
  exact ⟨hn, k, hk⟩

/-! ## C34 -/

/-- The numbers are exactly `1..n`, each once. -/
def OneToN (nums : List Nat) : Prop := ∃ n, nums.Perm ((List.range n).map (· + 1))

theorem sequenceFnd_eq_nil_iff (nums : List Int) :
    sequenceFnd nums = [] ↔ ∃ n : Nat, nums.Perm ((List.range n).map (fun k => ((k + 1 : Nat) : Int))) := by
  have hsorted : ∀ n : Nat, ((List.range n).map (fun k => ((k + 1 : Nat) : Int))).Pairwise (· ≤ ·) := by
    intro n
    rw [List.pairwise_map]
    exact List.Pairwise.imp (by intro a b h; omega) List.pairwise_lt_range
  have hany : sequenceFnd nums = [] ↔
      (sortInt nums).zipIdx.any (fun x => decide ((x.2 : Int) ≠ x.1 - 1)) = false := by
    unfold sequenceFnd
    cases (sortInt nums).zipIdx.any (fun x => decide ((x.2 : Int) ≠ x.1 - 1)) <;> simp
  rw [hany, List.any_eq_false]
  constructor
  · intro h
    refine ⟨(sortInt nums).length, (sortInt_perm nums).symm.trans (List.Perm.of_eq ?_)⟩
    apply List.ext_getElem
    · simp
    · intro i h1 h2
      have := h ((sortInt nums)[i], i) (List.mem_zipIdx_iff_getElem?.2 (by simp [h1]))
      simp only [decide_eq_true_eq, not_not] at this
      rw [List.getElem_map, List.getElem_range]; omega
  · rintro ⟨n, hp⟩ ⟨v, i⟩ hx
    rw [sortInt_unique hp (hsorted n)] at hx
    have := List.mem_zipIdx_iff_getElem?.1 hx
    simp only [decide_eq_true_eq, not_not] at this ⊢
    rw [List.getElem?_map] at this
    cases hr : (List.range n)[i]? with
    | none => rw [hr] at this; simp at this
    | some j =>
      rw [hr] at this
      obtain ⟨hi, hj⟩ := List.getElem?_eq_some_iff.1 hr
      rw [List.getElem_range] at hj
      simp only [Option.map_some, Option.some.injEq] at this
      omega

/-- **C34.** For every inventory whose version names denote numbers (`num`), in whatever map order, a
version-sequence error is reported exactly if the numbers are not `1..n`, each once. -/
theorem C34_sequence_error_iff {env : Env} {r : RawInv} {fs : List Fnd} (h : check env r = .ok fs)
    {num : Str → Nat} (hnum : ∀ k ∈ mkeys r.inv.versions, NameOf k (num k)) :
    HasCode fs (.E 10) ↔ ¬ OneToN ((mkeys r.inv.versions).map num) := by
  have F := check_findings h
  have hv : versionNumbers r.inv = ((mkeys r.inv.versions).map num).map (fun n => ((n : Nat) : Int)) := by
    unfold versionNumbers
    rw [List.map_map, ← List.filterMap_eq_map]
    apply List.filterMap_congr
    intro k hk
    exact (hnum k hk).verNumber
  have hkey : sequenceFnd (versionNumbers r.inv) = [] ↔ OneToN ((mkeys r.inv.versions).map num) := by
    rw [sequenceFnd_eq_nil_iff, hv]
    unfold OneToN
    apply exists_congr
    intro n
    have e : ((List.range n).map (fun k => ((k + 1 : Nat) : Int))) =
        ((List.range n).map (· + 1)).map (fun n => ((n : Nat) : Int)) := by rw [List.map_map]; rfl
    rw [e]
    exact List.map_perm_map_iff (f := fun n : Nat => (n : Int)) (fun a b h => Int.ofNat.inj h)
  rw [← hkey]
  constructor
  · rintro ⟨x, hx, hc⟩ hnil
    rcases F.tagged hx with h | h | h | h | h | h | h | h | h | h | h | h | h
    all_goals
      obtain ⟨h1, h2⟩ := h
      rw [hc] at h1
      first
        | (rw [hnil] at h2; simp at h2)
        | simp at h1
  · intro hne
    obtain ⟨x, hx⟩ := List.exists_mem_of_ne_nil _ hne
    exact ⟨x, (F.mem x).2 (Or.inr (Or.inr (Or.inr (Or.inl hx)))), sequenceFnd_codes hx⟩

/-- the environment in which everything parses -/
def exEnv : Env := ⟨fun _ => true, fun _ => true⟩
/-- the two-version object, decoded without problem -/
def exRaw : RawInv := { inv := exInv, vmeta := [] }
/-- the same without version 1 -/
def exRawGap : RawInv :=
  { inv := { exInv with versions := mdel exInv.versions "v1".toList }, vmeta := [] }

def exNum (k : Str) : Nat := (k.getD 1 '0').toNat - '0'.toNat

example : ∃ fs, check exEnv exRaw = .ok fs ∧ ¬ HasCode fs (.E 10) := by
  have hs : (check exEnv exRaw).isOk = true := by decide
  cases h : check exEnv exRaw with
  | error e => rw [h] at hs; cases hs
  | ok fs =>
    refine ⟨fs, rfl, ?_⟩
    rw [C34_sequence_error_iff (num := exNum) h ?_, not_not]
    · have e : (mkeys exRaw.inv.versions).map exNum = [2, 1] := by decide
      rw [e]; exact ⟨2, List.Perm.swap _ _ _⟩
    · intro k hk
      have e : mkeys exRaw.inv.versions = ["v2".toList, "v1".toList] := by decide
      rw [e] at hk
      simp only [List.mem_cons, List.not_mem_nil, or_false] at hk
      rcases hk with rfl | rfl
      · exact ⟨by decide, 0, by decide⟩
      · exact ⟨by decide, 0, by decide⟩

example : ∃ fs, check exEnv exRawGap = .ok fs ∧ HasCode fs (.E 10) := by
  have hs : (check exEnv exRawGap).toOption.any (fun fs => fs.any (fun x => decide (x.code = .E 10))) = true := by
    decide
  cases h : check exEnv exRawGap with
  | error e => rw [h] at hs; cases hs
  | ok fs =>
    rw [h] at hs
    refine ⟨fs, rfl, ?_⟩
    simpa [HasCode, Except.toOption] using hs

/-! ## C35 -/

/-- All names are those the tool gives to some version under padding `p` (0: none), and if padded have the
full width. -/
def Uniform (p : Nat) (keys : List Str) : Prop :=
  ∀ k ∈ keys, ∃ n : Nat, 0 < n ∧ (0 < p → (fmtNat n).length ≤ p) ∧ k = verName (p : Int) (n : Int)

/-- `h` is the version with the highest number. -/
def IsHighest (p : Nat) (keys : List Str) (h : Str) : Prop :=
  ∃ n : Nat, 0 < n ∧ h = verName (p : Int) (n : Int) ∧ h ∈ keys ∧
    ∀ m : Nat, 0 < m → verName (p : Int) (m : Int) ∈ keys → m ≤ n

theorem filter_eq_singleton {l : List Str} (hl : l.Nodup) {a : Str} (ha : a ∈ l) {q : Str → Bool}
    (hq : ∀ b ∈ l, q b = true ↔ b = a) : l.filter q = [a] := by
  have : l.filter q = l.filter (fun b => decide (b = a)) := by
    apply List.filter_congr
    intro b hb
    rw [Bool.eq_iff_iff, hq b hb, decide_eq_true_eq]
  rw [this]
  have h2 : l.filter (fun b => decide (b = a)) = List.replicate (List.count a l) a := by
    rw [← List.filter_beq]; congr 1; funext v; simp [beq_eq_decide]
  rw [h2, List.count_eq_one_of_mem hl ha]; rfl

/-- The listing of uniformly named versions. -/
theorem getVersionStrings_uniform {inv : Inv} {p : Nat} (hu : Uniform p (mkeys inv.versions))
    (hn : (mkeys inv.versions).Nodup) :
    getVersionStrings inv = (sortInt ((mkeys inv.versions).map vNum)).map (fun n => verName (p : Int) n) := by
  by_cases he : inv.versions = []
  · simp [getVersionStrings, he, sortInt, sortBy]
  have hmap : (mkeys inv.versions).mapM vNumber = some ((mkeys inv.versions).map vNum) := by
    apply mapM_eq_some
    intro v hv
    obtain ⟨j, _, _, rfl⟩ := hu v hv
    rw [vNumber_verName, vNum_verName]
  unfold getVersionStrings
  simp only [he, if_false, hmap]
  apply List.map_congr_left
  intro x hx
  have hx := (sortInt_perm _).mem_iff.1 hx
  obtain ⟨k, hk, rfl⟩ := List.mem_map.1 hx
  obtain ⟨n, _, _, rfl⟩ := hu k hk
  rw [vNum_verName]
  rw [filter_eq_singleton hn hk (q := fun k => decide (vNumber k = some (n : Int)))]
  · rfl
  · intro b hb
    obtain ⟨m, _, _, rfl⟩ := hu b hb
    rw [vNumber_verName, decide_eq_true_eq]
    constructor
    · intro h; have := Option.some.inj h; rw [this]
    · intro h; rw [verName_inj h]

theorem mem_getVersionStrings_uniform {inv : Inv} {p : Nat} (hu : Uniform p (mkeys inv.versions))
    (hn : (mkeys inv.versions).Nodup) (k : Str) :
    k ∈ getVersionStrings inv ↔ k ∈ mkeys inv.versions := by
  rw [getVersionStrings_uniform hu hn, List.mem_map]
  constructor
  · rintro ⟨x, hx, rfl⟩
    obtain ⟨k, hk, rfl⟩ := List.mem_map.1 ((sortInt_perm _).mem_iff.1 hx)
    obtain ⟨n, _, _, rfl⟩ := hu k hk
    rw [vNum_verName]; exact hk
  · intro hk
    refine ⟨vNum k, (sortInt_perm _).mem_iff.2 (List.mem_map_of_mem hk), ?_⟩
    obtain ⟨n, _, _, rfl⟩ := hu k hk
    rw [vNum_verName]

theorem versionValue_uniform {inv : Inv} {p n : Nat} (hn : 0 < n)
    (hk : verName (p : Int) (n : Int) ∈ mkeys inv.versions) :
    versionValue inv (verName (p : Int) (n : Int)) = some (n : Int) := by
  obtain ⟨v, hv⟩ := Option.isSome_iff_exists.1 (mget_isSome_iff.2 hk)
  unfold versionValue
  rw [hv]
  exact (nameOf_verName (p : Int) hn).verNumber

/-- The scan for the most recent version ends at the highest one. -/
theorem recent_fold {inv : Inv} {p : Nat} (l : List Nat) (a : Nat) (ha : 0 < a)
    (hka : verName (p : Int) (a : Int) ∈ mkeys inv.versions)
    (hl : ∀ x ∈ l, 0 < x ∧ verName (p : Int) (x : Int) ∈ mkeys inv.versions)
    {r : Str} (hr : r = verName (p : Int) (a : Int)) :
    ∃ b : Nat, b ∈ a :: l ∧ (∀ x ∈ a :: l, x ≤ b) ∧
      (l.map (fun (n : Nat) => verName (p : Int) (n : Int))).foldl
        (fun rec ver => if rec = [] then ver else if !versionLessOrEqual inv ver rec then ver else rec) r =
        verName (p : Int) (b : Int) := by
  induction l generalizing a r with
  | nil => exact ⟨a, by simp, by simp, hr⟩
  | cons x l ih =>
    have hx := hl x (by simp)
    rw [List.map_cons, List.foldl_cons, if_neg (by rw [hr]; exact verName_ne_nil _ _)]
    have hle : versionLessOrEqual inv (verName (p : Int) (x : Int)) r = decide (x ≤ a) := by
      unfold versionLessOrEqual
      rw [hr, versionValue_uniform hx.1 hx.2, versionValue_uniform ha hka]
      simp
    rw [hle]
    by_cases hxa : x ≤ a
    · simp only [hxa, decide_true, Bool.not_true, Bool.false_eq_true, if_false]
      obtain ⟨b, h1, h2, h3⟩ := ih a ha hka (fun y hy => hl y (by simp [hy])) hr
      refine ⟨b, ?_, ?_, h3⟩
      · rcases List.mem_cons.1 h1 with rfl | h1
        · simp
        · simp [h1]
      · intro y hy
        rcases List.mem_cons.1 hy with rfl | hy
        · exact h2 _ (by simp)
        rcases List.mem_cons.1 hy with rfl | hy
        · exact le_trans hxa (h2 _ (by simp))
        · exact h2 _ (by simp [hy])
    · simp only [hxa, decide_false, Bool.not_false, if_true]
      obtain ⟨b, h1, h2, h3⟩ := ih x hx.1 hx.2 (fun y hy => hl y (by simp [hy])) rfl
      refine ⟨b, by simp only [List.mem_cons] at h1 ⊢; tauto, ?_, h3⟩
      intro y hy
      rcases List.mem_cons.1 hy with rfl | hy
      · exact le_trans (by omega) (h2 x (by simp))
      · exact h2 y hy

/-- The most recent version of uniformly named versions is the highest. -/
theorem recentVersion_uniform {inv : Inv} {p : Nat} (hu : Uniform p (mkeys inv.versions))
    (hn : (mkeys inv.versions).Nodup) (hne : inv.versions ≠ []) :
    IsHighest p (mkeys inv.versions) (recentVersion inv) := by
  obtain ⟨l, hl⟩ : ∃ l : List Nat, sortInt ((mkeys inv.versions).map vNum) = l.map (fun n => ((n : Nat) : Int)) ∧
      ∀ x : Nat, x ∈ l ↔ 0 < x ∧ verName (p : Int) (x : Int) ∈ mkeys inv.versions := by
    refine ⟨(sortInt ((mkeys inv.versions).map vNum)).map Int.toNat, ?_, ?_⟩
    · rw [List.map_map]
      symm
      rw [← List.map_id (sortInt ((mkeys inv.versions).map vNum))]
      rw [List.map_map]
      apply List.map_congr_left
      intro x hx
      obtain ⟨k, hk, rfl⟩ := List.mem_map.1 ((sortInt_perm _).mem_iff.1 hx)
      obtain ⟨n, _, _, rfl⟩ := hu k hk
      simp [vNum_verName]
    · intro x
      constructor
      · intro hx
        obtain ⟨y, hy, rfl⟩ := List.mem_map.1 hx
        obtain ⟨k, hk, rfl⟩ := List.mem_map.1 ((sortInt_perm _).mem_iff.1 hy)
        obtain ⟨n, hn0, _, rfl⟩ := hu k hk
        rw [vNum_verName]
        exact ⟨hn0, hk⟩
      · rintro ⟨h0, hk⟩
        refine List.mem_map.2 ⟨(x : Int), (sortInt_perm _).mem_iff.2 (List.mem_map.2 ⟨_, hk, ?_⟩), rfl⟩
        exact vNum_verName _ _
  obtain ⟨hl1, hl2⟩ := hl
  have hgs : getVersionStrings inv = l.map (fun (n : Nat) => verName (p : Int) (n : Int)) := by
    rw [getVersionStrings_uniform hu hn, hl1, List.map_map]; rfl
  have hlne : l ≠ [] := by
    rintro rfl
    obtain ⟨e, he⟩ := List.exists_mem_of_ne_nil _ hne
    have hk : e.1 ∈ mkeys inv.versions := mem_mkeys_of_mem (v := e.2) he
    obtain ⟨n, h0, _, h1⟩ := hu _ hk
    have := (hl2 n).2 ⟨h0, h1 ▸ hk⟩
    simp at this
  cases l with
  | nil => exact absurd rfl hlne
  | cons a l =>
    have ha := (hl2 a).1 (by simp)
    obtain ⟨b, h1, h2, h3⟩ := recent_fold (inv := inv) (p := p) l a ha.1 ha.2
      (fun x hx => (hl2 x).1 (by simp [hx])) rfl
    have hb := (hl2 b).1 h1
    unfold recentVersion
    rw [hgs, List.map_cons, List.foldl_cons, if_pos rfl, h3]
    exact ⟨b, hb.1, rfl, hb.2, fun m hm hk => h2 m ((hl2 m).2 ⟨hm, hk⟩)⟩

theorem IsHighest.unique {p : Nat} {keys : List Str} {h h' : Str} (a : IsHighest p keys h)
    (b : IsHighest p keys h') : h = h' := by
  obtain ⟨n, hn, rfl, h1, h2⟩ := a
  obtain ⟨m, hm, rfl, h3, h4⟩ := b
  have e1 := h2 m hm h3
  have e2 := h4 n hn h1
  have : n = m := by omega
  rw [this]

/-- **C35.** For uniformly named versions, in whatever map order, a head error (a wrong head, or none) is
reported exactly if the head is not the highest version. -/
theorem C35_head_error_iff {env : Env} {r : RawInv} {fs : List Fnd} (h : check env r = .ok fs) {p : Nat}
    (hu : Uniform p (mkeys r.inv.versions)) (hn : (mkeys r.inv.versions).Nodup) (hdec : r.headErr = false) :
    (HasCode fs (.E 40) ∨ err 36 ["head".toList] ∈ fs) ↔
      ¬ IsHighest p (mkeys r.inv.versions) r.inv.head := by
  have F := check_findings h
  have hH : ∀ k, IsHighest p (mkeys r.inv.versions) k → k ≠ [] := by
    rintro k ⟨n, _, rfl, _⟩; exact verName_ne_nil _ _
  -- the empty head
  have h36 : err 36 ["head".toList] ∈ fs ↔ r.inv.head = [] := by
    constructor
    · intro hx
      rcases F.tagged hx with h | h | h | h | h | h | h | h | h | h | h | h | h
      all_goals
        obtain ⟨h1, h2⟩ := h
        first
          | (simp [err] at h1; done)
          | skip
      simp only [checkScalars, List.mem_append] at h2
      rcases h2 with (((((h | h) | h) | h) | h) | h) | h
      · split at h
        · exact absurd h (by simp [err])
        · simp at h
      · split at h
        · exact absurd h (by simp [err, warn])
        · simp at h
      · rw [if_neg (by simp [hdec])] at h
        split at h
        · assumption
        · simp at h
      · split at h
        · exact absurd h (by simp [err])
        · simp at h
      · split at h
        · exact absurd h (by simp [err])
        · simp at h
      · split at h
        · exact absurd h (by simp [err])
        · split at h
          · exact absurd h (by simp [err])
          · simp at h
      · split at h
        · exact absurd h (by simp [err])
        · simp at h
    · intro he
      refine (F.mem _).2 (Or.inr (Or.inr (Or.inr (Or.inr (Or.inr (Or.inr (Or.inr (Or.inr (Or.inr (Or.inr (Or.inr
        (Or.inr ?_))))))))))))
      simp only [checkScalars, List.mem_append]
      refine Or.inl (Or.inl (Or.inl (Or.inl (Or.inr ?_))))
      rw [if_neg (by simp [hdec]), if_pos he]; simp
  have h40 : HasCode fs (.E 40) ↔ ∃ x, x ∈ headFnd r.inv := by
    constructor
    · rintro ⟨x, hx, hc⟩
      rcases F.tagged hx with h | h | h | h | h | h | h | h | h | h | h | h | h
      all_goals
        obtain ⟨h1, h2⟩ := h
        rw [hc] at h1
        first
          | exact ⟨x, h2⟩
          | simp [hdec] at h1
    · rintro ⟨x, hx⟩
      exact ⟨x, (F.mem x).2 (Or.inr (Or.inr (Or.inr (Or.inr (Or.inr (Or.inl hx)))))), headFnd_codes hx⟩
  rw [h36, h40]
  by_cases hne : r.inv.versions = []
  · have hno : ¬ IsHighest p (mkeys r.inv.versions) r.inv.head := by
      rintro ⟨n, _, _, hk, _⟩; rw [hne] at hk; simp at hk
    simp only [hno, not_false_eq_true, iff_true]
    by_cases hh : r.inv.head = []
    · exact Or.inr hh
    · left
      refine ⟨err 40 (r.inv.head :: getVersionStrings r.inv), List.mem_append.2 (Or.inr ?_)⟩
      rw [if_pos ⟨hh, by simp [getVersionStrings, hne]⟩]; simp
  · have hrec := recentVersion_uniform hu hn hne
    constructor
    · rintro (⟨x, hx⟩ | hx) hhi
      · have e := hhi.unique hrec
        rcases List.mem_append.1 hx with hx | hx
        · rw [if_neg (by simp [e])] at hx; simp at hx
        · rw [if_neg (by
            rintro ⟨_, h2⟩
            obtain ⟨n, _, _, hk, _⟩ := hhi
            exact h2 ((mem_getVersionStrings_uniform hu hn _).2 hk))] at hx
          simp at hx
      · exact hH _ hhi hx
    · intro hno
      by_cases hh : r.inv.head = []
      · exact Or.inr hh
      · left
        refine ⟨err 40 [r.inv.head, recentVersion r.inv], List.mem_append.2 (Or.inl ?_)⟩
        rw [if_pos ⟨fun e => hno (e ▸ hrec), hh⟩]; simp

theorem exInv_uniform : Uniform 0 (mkeys exInv.versions) := by
  intro k hk
  have e : mkeys exInv.versions = ["v2".toList, "v1".toList] := by decide
  rw [e] at hk
  simp only [List.mem_cons, List.not_mem_nil, or_false] at hk
  rcases hk with rfl | rfl
  · exact ⟨2, by decide, by simp, by decide⟩
  · exact ⟨1, by decide, by simp, by decide⟩

/-- with the head set back to `v1`, a head error is reported -/
example : ∃ fs, check exEnv { exRaw with inv := { exInv with head := "v1".toList } } = .ok fs ∧
    (HasCode fs (.E 40) ∨ err 36 ["head".toList] ∈ fs) := by
  have hs : (check exEnv { exRaw with inv := { exInv with head := "v1".toList } }).isOk = true := by decide
  cases h : check exEnv { exRaw with inv := { exInv with head := "v1".toList } } with
  | error e => rw [h] at hs; cases hs
  | ok fs =>
    refine ⟨fs, rfl, ?_⟩
    rw [C35_head_error_iff (p := 0) h exInv_uniform (by decide) rfl]
    rintro ⟨n, hn, h1, _, h2⟩
    have h1 : verName 0 ((1 : Nat) : Int) = verName 0 (n : Int) := h1
    have := verName_inj h1
    have := h2 2 (by decide) (by decide)
    omega

/-! ## C36 -/

/-- **C36, state digests.** For every inventory whose states were decoded without error, in whatever map
order, a state-digest error (missing digest, or one present only in other letter case) is reported exactly
if some version — among those whose name has a number — refers to a digest that is not in the manifest. -/
theorem C36_state_digest_error_iff {env : Env} {r : RawInv} {fs : List Fnd} (h : check env r = .ok fs)
    (hm : (mkeys r.inv.manifest).Nodup) (hdec : ∀ k ∈ mkeys r.inv.versions, (r.vm k).stateErr = false) :
    (HasCode fs (.E 50) ∨ HasCode fs (.E 96)) ↔
      ∃ v ver d ps, (v, ver) ∈ r.inv.versions ∧ (∃ n, verNumber v = some n) ∧ (d, ps) ∈ ver.state ∧
        ∀ m, (d, m) ∉ r.inv.manifest := by
  have F := check_findings h
  have hnot : ∀ d, d ∉ mkeys r.inv.manifest ↔ ∀ m, (d, m) ∉ r.inv.manifest := by
    intro d
    constructor
    · intro h m hm; exact h (mem_mkeys_of_mem hm)
    · intro h hd
      obtain ⟨⟨d', m⟩, he, rfl⟩ := List.mem_map.1 hd
      exact h m he
  constructor
  · intro hc
    obtain ⟨x, hx, hcode⟩ : ∃ x ∈ fs, x.code = .E 50 ∨ x.code = .E 96 := by
      rcases hc with ⟨x, hx, h⟩ | ⟨x, hx, h⟩
      · exact ⟨x, hx, Or.inl h⟩
      · exact ⟨x, hx, Or.inr h⟩
    rcases F.tagged hx with h | h | h | h | h | h | h | h | h | h | h | h | h
    case inr.inr.inl =>
      obtain ⟨h1, e, he, g, hg, hxg⟩ := h
      cases hn : verNumber e.1 with
      | none => unfold versionFnd at hg; rw [hn] at hg; cases hg; simp at hxg
      | some n =>
        obtain ⟨a, b, ha, hb, rfl⟩ := versionFnd_ok hn hg
        rcases List.mem_append.1 hxg with hx | hx
        · rcases metaFnd_codes ha hx with hc | ⟨hc, _⟩
          · rcases hcode with h | h <;> rw [h] at hc <;> simp at hc
          · rw [hdec e.1 (mem_mkeys_of_mem (v := e.2) he)] at hc; cases hc
        · obtain ⟨s, hs, g, hg, hxg⟩ := (mem_collect hb x).1 hx
          rcases (mem_stateEntryFnd hg x).1 hxg with ⟨h, _⟩ | ⟨p, _, g, hg, hxg⟩
          · exact ⟨e.1, e.2, s.1, s.2, he, ⟨n, hn⟩, hs, (hnot _).1 h⟩
          · rcases checkPath_codes hg hxg with h | h <;> rw [h] at hcode <;> simp at hcode
    case inr.inr.inr.inr.inr.inr.inr.inl =>
      rw [mem_manifestDigestFnd hm (by simp)] at h
      obtain ⟨_, d, _, _, rfl⟩ := h
      simp [err] at hcode
    all_goals
      obtain ⟨h1, h2⟩ := h
      rcases hcode with hc | hc <;> rw [hc] at h1 <;> simp at h1
  · rintro ⟨v, ver, d, ps, hv, ⟨n, hn⟩, hd, hno⟩
    obtain ⟨g, hg⟩ := F.versions_ok _ hv
    obtain ⟨a, b, ha, hb, rfl⟩ := versionFnd_ok hn hg
    obtain ⟨g', hg'⟩ := collect_ok_iff.1 ⟨b, hb⟩ _ hd
    have key : ∀ x, x ∈ g' → x ∈ fs := fun x hx =>
      (F.mem x).2 (Or.inr (Or.inr (Or.inl ⟨_, hv, _, hg,
        List.mem_append.2 (Or.inr ((mem_collect hb x).2 ⟨_, hd, g', hg', hx⟩))⟩)))
    by_cases hlow : toLower d ∈ (mkeys r.inv.manifest).map toLower
    · exact Or.inr ⟨_, key (err 96 [v, d]) ((mem_stateEntryFnd hg' _).2
        (Or.inl ⟨(hnot d).2 hno, Or.inl ⟨rfl, hlow⟩⟩)), rfl⟩
    · exact Or.inl ⟨_, key (err 50 [v, d]) ((mem_stateEntryFnd hg' _).2
        (Or.inl ⟨(hnot d).2 hno, Or.inr ⟨rfl, hlow⟩⟩)), rfl⟩

/-- **C36, unreferenced digests.** In whatever map order, an unreferenced-digest error is reported exactly if
some digest of the manifest is used by no version. -/
theorem C36_unreferenced_error_iff {env : Env} {r : RawInv} {fs : List Fnd} (h : check env r = .ok fs)
    (hm : (mkeys r.inv.manifest).Nodup) :
    HasCode fs (.E 107) ↔
      ∃ d m, (d, m) ∈ r.inv.manifest ∧ ∀ v ver ps, (v, ver) ∈ r.inv.versions → (d, ps) ∉ ver.state := by
  have F := check_findings h
  have hused : ∀ d, d ∉ usedDigests r.inv ↔
      ∀ v ver ps, (v, ver) ∈ r.inv.versions → (d, ps) ∉ ver.state := by
    intro d
    unfold usedDigests
    rw [List.mem_flatMap]
    constructor
    · intro h v ver ps hv hd; exact h ⟨_, hv, mem_mkeys_of_mem hd⟩
    · rintro h ⟨e, he, hd⟩
      obtain ⟨⟨d', m⟩, hm, rfl⟩ := List.mem_map.1 hd
      exact h e.1 e.2 m he hm
  constructor
  · rintro ⟨x, hx, hcode⟩
    rcases F.tagged hx with h | h | h | h | h | h | h | h | h | h | h | h | h
    case inr.inr.inr.inr.inr.inr.inr.inl =>
      rw [mem_manifestDigestFnd hm (by simp)] at h
      obtain ⟨_, d, hd, hu, rfl⟩ := h
      obtain ⟨⟨d', m⟩, hmm, rfl⟩ := List.mem_map.1 hd
      exact ⟨d', m, hmm, (hused _).1 hu⟩
    all_goals
      obtain ⟨h1, h2⟩ := h
      rw [hcode] at h1
      simp at h1
  · rintro ⟨d, m, hd, hno⟩
    refine ⟨err 107 [d], (F.mem _).2 (Or.inr (Or.inr (Or.inr (Or.inr (Or.inr (Or.inr (Or.inr (Or.inl ?_)))))))),
      rfl⟩
    rw [mem_manifestDigestFnd hm (by simp)]
    exact ⟨d, mem_mkeys_of_mem hd, (hused d).2 hno, rfl⟩

/-- an object whose manifest lacks `d1` and has an extra digest -/
def exRawDangling : RawInv :=
  { inv := { exInv with manifest := [("d2".toList, ["v2/content/b".toList]), ("d3".toList, ["v2/content/c".toList])] },
    vmeta := [] }

example : ∃ fs, check exEnv exRawDangling = .ok fs ∧
    (HasCode fs (.E 50) ∨ HasCode fs (.E 96)) ∧ HasCode fs (.E 107) := by
  have hs : (check exEnv exRawDangling).isOk = true := by decide
  cases h : check exEnv exRawDangling with
  | error e => rw [h] at hs; cases hs
  | ok fs =>
    refine ⟨fs, rfl, ?_, ?_⟩
    · rw [C36_state_digest_error_iff h (by decide) (by decide)]
      refine ⟨"v1".toList, _, "d1".toList, ["a".toList], by
        simp only [exRawDangling, exInv]; exact List.mem_cons_of_mem _ (List.mem_singleton.2 rfl),
        ⟨1, by decide⟩, by simp, ?_⟩
      intro m hm
      have : "d1".toList ∈ mkeys exRawDangling.inv.manifest := mem_mkeys_of_mem hm
      exact absurd this (by decide)
    · rw [C36_unreferenced_error_iff h (by decide)]
      refine ⟨"d3".toList, ["v2/content/c".toList], by simp [exRawDangling], ?_⟩
      intro v ver ps hv hd
      have : ∀ e ∈ exRawDangling.inv.versions, "d3".toList ∉ mkeys e.2.state := by decide
      exact this _ hv (mem_mkeys_of_mem hd)

end Gocfl
