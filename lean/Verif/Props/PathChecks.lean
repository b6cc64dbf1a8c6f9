import Verif.Props.Validate
import Verif.Go.Path

/-!
# Properties of path checks and of the robustness of validation (C37–C40)
-/

namespace Gocfl

/-- `q` lies in the directory `p`. -/
def UnderDir (p q : Str) : Prop := ∃ s, q = p ++ '/' :: s

/-- Some version has a logical path that is a directory prefix of another one. -/
def LogicalConflict (inv : Inv) : Prop :=
  ∃ v ver p q, (v, ver) ∈ inv.versions ∧ p ∈ statePaths ver.state ∧ q ∈ statePaths ver.state ∧ UnderDir p q

/-! ## Order facts -/

/-- What lies between `p` and an extension of `p` in string order is an extension of `p`. -/
theorem strLe_between {p x t : Str} (h1 : strLe p x = true) (h2 : strLe x (p ++ t) = true) :
    ∃ y, x = p ++ y ∧ strLe y t = true := by
  induction p generalizing x with
  | nil => exact ⟨x, rfl, h2⟩
  | cons a p ih =>
    cases x with
    | nil => simp [strLe] at h1
    | cons b x =>
      simp only [List.cons_append, strLe] at h1 h2
      by_cases e : a.toNat = b.toNat
      · rw [if_pos e] at h1
        rw [if_pos e.symm] at h2
        obtain ⟨y, rfl, hy⟩ := ih h1 h2
        exact ⟨y, by rw [char_toNat_inj e]; rfl, hy⟩
      · rw [if_neg e] at h1
        rw [if_neg (Ne.symm e)] at h2
        simp only [decide_eq_true_eq] at h1 h2
        omega

theorem strLe_append (p t : Str) : strLe p (p ++ t) = true := by
  induction p with
  | nil => simp [strLe]
  | cons a p ih => simp [strLe, ih]

theorem strLe_append_left (p a b : Str) : strLe (p ++ a) (p ++ b) = strLe a b := by
  induction p with
  | nil => rfl
  | cons c p ih => simp [strLe, ih]

theorem hasPrefix_iff {s p : Str} : hasPrefix s p = true ↔ ∃ t, s = p ++ t := by
  unfold hasPrefix
  rw [List.isPrefixOf_iff_prefix]
  exact ⟨fun ⟨t, h⟩ => ⟨t, h.symm⟩, fun ⟨t, h⟩ => ⟨t, h.symm⟩⟩

theorem trimSuffix_slash {p : Str} (h : p.getLast? ≠ some '/') : trimSuffix p "/".toList = p := by
  unfold trimSuffix
  rw [if_neg]
  intro hc
  rw [List.isSuffixOf_iff_suffix] at hc
  obtain ⟨t, rfl⟩ := hc
  exact h (by simp)

theorem mem_pairs_iff {α : Type} {l : List α} {a b : α} :
    (a, b) ∈ pairs l ↔ ∃ l1 l2, l = l1 ++ a :: b :: l2 := by
  induction l with
  | nil => simp [pairs]
  | cons x l ih =>
    cases l with
    | nil =>
      simp only [pairs, List.not_mem_nil, false_iff, not_exists]
      rintro l1 l2 h
      have := congrArg List.length h
      simp at this; omega
    | cons y l =>
      rw [pairs, List.mem_cons, ih]
      constructor
      · rintro (h | ⟨l1, l2, h⟩)
        · cases h; exact ⟨[], l, rfl⟩
        · exact ⟨x :: l1, l2, by rw [h]; rfl⟩
      · rintro ⟨l1, l2, h⟩
        cases l1 with
        | nil => cases h; exact Or.inl rfl
        | cons z l1 =>
          right
          exact ⟨l1, l2, by injection h⟩

/-! ## C37 -/

/-- The full statement. -/
def C37_full : Prop :=
  ∀ env r fs, check env r = .ok fs → (HasCode fs (.E 95) ↔ LogicalConflict r.inv)

theorem hasCode_95_iff {env : Env} {r : RawInv} {fs : List Fnd} (h : check env r = .ok fs) :
    HasCode fs (.E 95) ↔ ∃ e ∈ r.inv.versions, logicalFnd e.2.state ≠ [] := by
  have F := check_findings h
  constructor
  · rintro ⟨x, hx, hc⟩
    rcases F.tagged hx with h | h | h | h | h | h | h | h | h | h | h | h | h
    all_goals
      obtain ⟨h1, h2⟩ := h
      rw [hc] at h1
      first
        | (simp at h1; done)
        | (obtain ⟨e, he, hx⟩ := h2; exact ⟨e, he, List.ne_nil_of_mem hx⟩)
  · rintro ⟨e, he, hne⟩
    obtain ⟨x, hx⟩ := List.exists_mem_of_ne_nil _ hne
    exact ⟨x, (F.mem x).2 (by (iterate 6 right); exact Or.inl ⟨e, he, hx⟩), logicalFnd_codes hx⟩

theorem logicalFnd_ne_nil_iff {s : DMap} :
    logicalFnd s ≠ [] ↔ ∃ l1 p q l2, sortStr (statePaths s) = l1 ++ p :: q :: l2 ∧
      UnderDir (trimSuffix p "/".toList) q := by
  unfold logicalFnd
  rw [Ne, List.map_eq_nil_iff, List.filter_eq_nil_iff]
  constructor
  · intro h
    by_contra hc
    apply h
    rintro ⟨p, q⟩ hm hp
    obtain ⟨l1, l2, hl⟩ := mem_pairs_iff.1 hm
    obtain ⟨t, ht⟩ := hasPrefix_iff.1 hp
    exact hc ⟨l1, p, q, l2, hl, t, by simpa using ht⟩
  · rintro ⟨l1, p, q, l2, hl, s', hs⟩ h
    exact h (p, q) (mem_pairs_iff.2 ⟨l1, l2, hl⟩) (hasPrefix_iff.2 ⟨s', by simpa using hs⟩)

/-- **C37, what is reported is a conflict.** Whatever the inventory, if a conflict is reported and no
logical path ends in a slash (such paths are errors themselves), some logical path of some version is a
directory prefix of another. -/
theorem C37_reported_is_conflict_partial {env : Env} {r : RawInv} {fs : List Fnd} (h : check env r = .ok fs)
    (hs : ∀ v ver, (v, ver) ∈ r.inv.versions → ∀ p ∈ statePaths ver.state, p.getLast? ≠ some '/')
    (hc : HasCode fs (.E 95)) : LogicalConflict r.inv := by
  obtain ⟨e, he, hne⟩ := (hasCode_95_iff h).1 hc
  obtain ⟨l1, p, q, l2, hl, hu⟩ := logicalFnd_ne_nil_iff.1 hne
  have hp : p ∈ statePaths e.2.state := mem_sortStr.1 (by rw [hl]; simp)
  have hq : q ∈ statePaths e.2.state := mem_sortStr.1 (by rw [hl]; simp)
  rw [trimSuffix_slash (hs e.1 e.2 he p hp)] at hu
  exact ⟨e.1, e.2, p, q, he, hp, hq, hu⟩

theorem adjacent_conflict {p q : Str} (hu : UnderDir p q) (l1 l2 : List Str)
    (hs : (p :: l2).Pairwise (fun a b => strLe a b = true)) (hq : q ∈ l2)
    (hno : ∀ c y, p ++ c :: y ∈ l2 → ¬ c.toNat < '/'.toNat) :
    ∃ l3 x l4, l1 ++ p :: l2 = l3 ++ p :: x :: l4 ∧ UnderDir p x := by
  induction l2 generalizing l1 with
  | nil => simp at hq
  | cons x l2 ih =>
    obtain ⟨t, rfl⟩ := hu
    have hpx : strLe p x = true := (List.pairwise_cons.1 hs).1 x (by simp)
    have hxq : strLe x (p ++ '/' :: t) = true := by
      rcases List.mem_cons.1 hq with h | h
      · rw [h]; exact strLe_refl _
      · exact (List.pairwise_cons.1 (List.pairwise_cons.1 hs).2).1 _ h
    obtain ⟨y, rfl, hy⟩ := strLe_between hpx hxq
    cases y with
    | nil =>
      rw [List.append_nil] at hs hno hq ⊢
      have hq' : p ++ '/' :: t ∈ l2 := by
        rcases List.mem_cons.1 hq with h | h
        · have := congrArg List.length h; simp at this
        · exact h
      obtain ⟨l3, x', l4, hl, hx⟩ := ih (l1 ++ [p]) (List.pairwise_cons.1 hs).2 hq'
        (fun c y hm => hno c y (by simp [hm]))
      exact ⟨l3, x', l4, by rw [← hl]; simp, hx⟩
    | cons c y =>
      refine ⟨l1, _, l2, rfl, y, ?_⟩
      have h1 := hno c y (by simp)
      simp only [strLe] at hy
      by_cases e : c.toNat = '/'.toNat
      · rw [char_toNat_inj e]
      · rw [if_neg e, decide_eq_true_eq] at hy; exact absurd hy h1

/-- **C37, which conflicts are reported.** A conflict `p`, `p/…` of some version is reported provided that no
logical path of that version has the form `p c …` with a character `c` sorting before the slash
(such as `p-1`, `p.txt`, `p 2`, `p+`). -/
theorem C37_conflict_reported_partial {env : Env} {r : RawInv} {fs : List Fnd} (h : check env r = .ok fs)
    {v : Str} {ver : Version} {p q : Str} (hv : (v, ver) ∈ r.inv.versions) (hp : p ∈ statePaths ver.state)
    (hq : q ∈ statePaths ver.state) (hu : UnderDir p q) (hend : p.getLast? ≠ some '/')
    (hno : ∀ c y, p ++ c :: y ∈ statePaths ver.state → ¬ c.toNat < '/'.toNat) : HasCode fs (.E 95) := by
  rw [hasCode_95_iff h]
  refine ⟨_, hv, ?_⟩
  rw [logicalFnd_ne_nil_iff]
  have hsort := sortStr_sorted (statePaths ver.state)
  obtain ⟨l1, l2, hl⟩ := List.append_of_mem (mem_sortStr.2 hp)
  have hq' : q ∈ l2 := by
    have hm := mem_sortStr.2 hq
    rw [hl] at hm hsort
    rcases List.mem_append.1 hm with hm | hm
    · have := (List.pairwise_append.1 hsort).2.2 q hm p (by simp)
      obtain ⟨t, rfl⟩ := hu
      have := strLe_antisymm this (strLe_append p _)
      have := congrArg List.length this
      simp at this
    · rcases List.mem_cons.1 hm with rfl | hm
      · obtain ⟨t, ht⟩ := hu
        have := congrArg List.length ht
        simp at this
      · exact hm
  have hs2 : (p :: l2).Pairwise (fun a b => strLe a b = true) := by
    rw [hl] at hsort; exact (List.pairwise_append.1 hsort).2.1
  obtain ⟨l3, x, l4, he, hx⟩ := adjacent_conflict hu l1 l2 hs2 hq'
    (fun c y hm => hno c y (mem_sortStr.1 (by rw [hl]; simp [hm])))
  exact ⟨l3, p, x, l4, by rw [hl, he], by rw [trimSuffix_slash hend]; exact hx⟩

/-- a version with the given logical paths -/
def exVer (ps : List Str) : Version := ⟨"t".toList, "m".toList, "u".toList, "mailto:u".toList, [("d1".toList, ps)]⟩
/-- an object with one version having the given logical paths -/
def exOne (ps : List Str) : RawInv :=
  { inv := { exInv with versions := [("v1".toList, exVer ps)], head := "v1".toList,
                        manifest := [("d1".toList, ["v1/content/a".toList])] },
    vmeta := [] }

example : ∃ fs, check exEnv (exOne ["b".toList, "a/x".toList, "a".toList]) = .ok fs ∧ HasCode fs (.E 95) := by
  have hs : (check exEnv (exOne ["b".toList, "a/x".toList, "a".toList])).isOk = true := by decide
  cases h : check exEnv (exOne ["b".toList, "a/x".toList, "a".toList]) with
  | error e => rw [h] at hs; cases hs
  | ok fs =>
    refine ⟨fs, rfl, C37_conflict_reported_partial h (v := "v1".toList) (p := "a".toList) (q := "a/x".toList)
      (List.mem_singleton.2 rfl) (by decide) (by decide) ⟨"x".toList, rfl⟩ (by decide) ?_⟩
    intro c y hm
    have e : statePaths (exVer ["b".toList, "a/x".toList, "a".toList]).state =
      ["b".toList, "a/x".toList, "a".toList] := rfl
    rw [e] at hm
    simp only [List.mem_cons, List.not_mem_nil, or_false] at hm
    rcases hm with hm | hm | hm
    · simp at hm
    · have hm : 'a' :: c :: y = 'a' :: '/' :: "x".toList := hm
      injection hm with _ hm
      injection hm with hm _
      rw [hm]; decide
    · simp at hm

/-- **C37 fails in general.** Whatever `p`, `s`, `t`: a version with exactly the paths `p`, `p-s` and `p/t`
raises no conflict, although `p` is a directory prefix of `p/t`. -/
theorem C37_full_fails_between {p s t : Str} (hend : p.getLast? ≠ some '/') {env : Env} {r : RawInv}
    {fs : List Fnd} (h : check env r = .ok fs)
    (hall : ∀ v ver, (v, ver) ∈ r.inv.versions → (statePaths ver.state).Perm [p, p ++ '-' :: s, p ++ '/' :: t]) :
    ¬ HasCode fs (.E 95) := by
  rw [hasCode_95_iff h]
  rintro ⟨e, he, hne⟩
  have hsorted : sortStr (statePaths e.2.state) = [p, p ++ '-' :: s, p ++ '/' :: t] := by
    refine sorted_perm_unique strLe (fun _ _ => strLe_antisymm) (sortStr_sorted _) ?_
      ((sortStr_perm _).trans (hall e.1 e.2 he))
    have h1 : strLe (p ++ '-' :: s) (p ++ '/' :: t) = true := by rw [strLe_append_left]; rfl
    simp [strLe_append, h1]
  obtain ⟨l1, a, b, l2, hl, hu⟩ := logicalFnd_ne_nil_iff.1 hne
  have hm : (a, b) ∈ pairs [p, p ++ '-' :: s, p ++ '/' :: t] := by
    rw [← hsorted]; exact mem_pairs_iff.2 ⟨l1, l2, hl⟩
  simp only [pairs, List.mem_cons, Prod.mk.injEq, List.not_mem_nil, or_false] at hm
  obtain ⟨u, hu⟩ := hu
  rcases hm with ⟨rfl, rfl⟩ | ⟨rfl, rfl⟩
  · rw [trimSuffix_slash hend] at hu
    have := List.append_cancel_left hu
    simp at this
  · have key : ∃ w, trimSuffix (p ++ '-' :: s) "/".toList = p ++ '-' :: w := by
      unfold trimSuffix
      split
      · rename_i hsuf
        rw [List.isSuffixOf_iff_suffix] at hsuf
        obtain ⟨z, hz⟩ := hsuf
        refine ⟨s.take (s.length - 1), ?_⟩
        have hs : s ≠ [] := by
          rintro rfl
          have := congrArg List.getLast? hz
          simp at this
        have hlen : (p ++ '-' :: s).length - "/".toList.length = p.length + (1 + (s.length - 1)) := by
          have := List.length_pos_iff.2 hs
          simp; omega
        rw [hlen, List.take_append, List.take_of_length_le (by omega)]
        congr 1
        have : p.length + (1 + (s.length - 1)) - p.length = (s.length - 1) + 1 := by omega
        rw [this]; rfl
      · exact ⟨s, rfl⟩
    obtain ⟨w, hw⟩ := key
    rw [hw, List.append_assoc] at hu
    have := List.append_cancel_left hu
    simp at this

theorem C37_full_fails : ¬ C37_full := by
  intro hf
  have hs : (check exEnv (exOne ["a".toList, "a-b".toList, "a/b".toList])).isOk = true := by decide
  cases h : check exEnv (exOne ["a".toList, "a-b".toList, "a/b".toList]) with
  | error e => rw [h] at hs; cases hs
  | ok fs =>
    refine C37_full_fails_between (p := "a".toList) (s := "b".toList) (t := "b".toList) (by decide) h ?_
      ((hf _ _ _ h).2 ?_)
    · intro v ver hv
      have hv := List.mem_singleton.1 hv
      cases hv
      exact List.Perm.of_eq rfl
    · exact ⟨"v1".toList, _, "a".toList, "a/b".toList, List.mem_singleton.2 rfl, by decide, by decide,
        "b".toList, rfl⟩

/-! ## C38 -/

/-- Two content paths of the manifest (at different places) are equal or one is a directory prefix of the
other. -/
def ContentConflict (inv : Inv) : Prop :=
  ¬ (inv.manifest.flatMap (·.2)).Pairwise (fun p q => p ≠ q ∧ ¬ UnderDir p q ∧ ¬ UnderDir q p)

/-- The full statement. -/
def C38_full : Prop :=
  ∀ env r fs, check env r = .ok fs → (HasCode fs (.E 101) ↔ ContentConflict r.inv)

theorem hasCode_101_iff {env : Env} {r : RawInv} {fs : List Fnd} (h : check env r = .ok fs) :
    HasCode fs (.E 101) ↔ contentFnd (r.inv.manifest.flatMap (·.2)) ≠ [] := by
  have F := check_findings h
  constructor
  · rintro ⟨x, hx, hc⟩
    rcases F.tagged hx with h | h | h | h | h | h | h | h | h | h | h | h | h
    all_goals
      obtain ⟨h1, h2⟩ := h
      rw [hc] at h1
      first
        | (simp at h1; done)
        | exact List.ne_nil_of_mem h2
  · intro hne
    obtain ⟨x, hx⟩ := List.exists_mem_of_ne_nil _ hne
    exact ⟨x, (F.mem x).2 (by (iterate 9 right); exact Or.inl hx), contentFnd_codes hx⟩

theorem contentFnd_ne_nil_iff {ps : List Str} :
    contentFnd ps ≠ [] ↔ ∃ l1 p q l2, sortStr ps = l1 ++ p :: q :: l2 ∧
      UnderDir (trimRight q "/".toList) p := by
  unfold contentFnd
  rw [Ne, List.map_eq_nil_iff, List.filter_eq_nil_iff]
  constructor
  · intro h
    by_contra hc
    apply h
    rintro ⟨p, q⟩ hm hp
    obtain ⟨l1, l2, hl⟩ := mem_pairs_iff.1 hm
    obtain ⟨t, ht⟩ := hasPrefix_iff.1 hp
    exact hc ⟨l1, p, q, l2, hl, t, by simpa using ht⟩
  · rintro ⟨l1, p, q, l2, hl, s', hs⟩ h
    exact h (p, q) (mem_pairs_iff.2 ⟨l1, l2, hl⟩) (hasPrefix_iff.2 ⟨s', by simpa using hs⟩)

theorem trimRight_slash {p : Str} (h : p.getLast? ≠ some '/') : trimRight p "/".toList = p := by
  unfold trimRight trimLeft
  cases hr : p.reverse with
  | nil => rw [List.reverse_eq_nil_iff] at hr; subst hr; rfl
  | cons c l =>
    have : p = l.reverse ++ [c] := by rw [← List.reverse_reverse p, hr]; simp
    subst this
    have hc : c ≠ '/' := by simpa using h
    rw [List.dropWhile_cons_of_neg (by simp [hc])]
    simp

/-- **C38 fails for every inventory.** The conflict check compares the sorted neighbours the wrong way
round: unless some content path ends in a slash, no conflict is ever reported. -/
theorem C38_full_fails_never_reported {env : Env} {r : RawInv} {fs : List Fnd} (h : check env r = .ok fs)
    (hs : ∀ d ps p, (d, ps) ∈ r.inv.manifest → p ∈ ps → p.getLast? ≠ some '/') : ¬ HasCode fs (.E 101) := by
  rw [hasCode_101_iff h, contentFnd_ne_nil_iff]
  rintro ⟨l1, p, q, l2, hl, t, ht⟩
  have hq : q ∈ r.inv.manifest.flatMap (·.2) := mem_sortStr.1 (by rw [hl]; simp)
  obtain ⟨e, he, hqe⟩ := List.mem_flatMap.1 hq
  rw [trimRight_slash (hs e.1 e.2 q he hqe)] at ht
  have hsort := sortStr_sorted (r.inv.manifest.flatMap (·.2))
  rw [hl] at hsort
  have hle := (List.pairwise_cons.1 (List.pairwise_append.1 hsort).2.1).1 q (by simp)
  have : q ++ '/' :: t = q := ht ▸ strLe_antisymm hle (ht ▸ strLe_append q _)
  have := congrArg List.length this
  simp at this

/-- **C38, the part that holds.** If a conflict is reported, then some content path lies in the directory
named by a content path ending in slashes (without them).  Missing: every conflict between proper
paths. -/
theorem C38_reported_is_conflict_partial {env : Env} {r : RawInv} {fs : List Fnd} (h : check env r = .ok fs)
    (hc : HasCode fs (.E 101)) :
    ∃ p q, p ∈ r.inv.manifest.flatMap (·.2) ∧ q ∈ r.inv.manifest.flatMap (·.2) ∧ q.getLast? = some '/' ∧
      UnderDir (trimRight q "/".toList) p := by
  rw [hasCode_101_iff h, contentFnd_ne_nil_iff] at hc
  obtain ⟨l1, p, q, l2, hl, t, ht⟩ := hc
  have hp : p ∈ r.inv.manifest.flatMap (·.2) := mem_sortStr.1 (by rw [hl]; simp)
  have hq : q ∈ r.inv.manifest.flatMap (·.2) := mem_sortStr.1 (by rw [hl]; simp)
  refine ⟨p, q, hp, hq, ?_, t, ht⟩
  by_contra hlast
  rw [trimRight_slash hlast] at ht
  have hsort := sortStr_sorted (r.inv.manifest.flatMap (·.2))
  rw [hl] at hsort
  have hle := (List.pairwise_cons.1 (List.pairwise_append.1 hsort).2.1).1 q (by simp)
  have : q ++ '/' :: t = q := ht ▸ strLe_antisymm hle (ht ▸ strLe_append q _)
  have := congrArg List.length this
  simp at this

/-- an object with the given content paths -/
def exMan (ps : List Str) : RawInv :=
  { inv := { exInv with versions := [("v1".toList, exVer ["a".toList])], head := "v1".toList,
                        manifest := [("d1".toList, ps)] },
    vmeta := [] }

/-- equal content paths ending in a slash are reported, so the hypothesis of the partial theorem is met -/
example : ∃ fs, check exEnv (exMan ["c/".toList, "c/".toList]) = .ok fs ∧ HasCode fs (.E 101) := by
  have hs : (check exEnv (exMan ["c/".toList, "c/".toList])).toOption.any
    (fun fs => fs.any (fun x => decide (x.code = .E 101))) = true := by decide
  cases h : check exEnv (exMan ["c/".toList, "c/".toList]) with
  | error e => rw [h] at hs; cases hs
  | ok fs => rw [h] at hs; exact ⟨fs, rfl, by simpa [HasCode, Except.toOption] using hs⟩

theorem C38_full_fails : ¬ C38_full := by
  intro hf
  have hs : (check exEnv (exMan ["v1/content/a".toList, "v1/content/a/b".toList])).isOk = true := by decide
  cases h : check exEnv (exMan ["v1/content/a".toList, "v1/content/a/b".toList]) with
  | error e => rw [h] at hs; cases hs
  | ok fs =>
    refine C38_full_fails_never_reported h ?_ ((hf _ _ _ h).2 ?_)
    · intro d ps p hd hp
      have hd := List.mem_singleton.1 hd
      cases hd
      have : ∀ p ∈ ["v1/content/a".toList, "v1/content/a/b".toList], p.getLast? ≠ some '/' := by decide
      exact this p hp
    · intro hp
      have hp : (["v1/content/a".toList, "v1/content/a/b".toList] : List Str).Pairwise
        (fun p q => p ≠ q ∧ ¬ UnderDir p q ∧ ¬ UnderDir q p) := hp
      have := (List.pairwise_cons.1 hp).1 "v1/content/a/b".toList (by simp)
      exact this.2.1 ⟨"b".toList, rfl⟩

/-! ## C39 -/

/-- A relative path none of whose segments is empty, `.` or `..`. -/
def SafePath (p : Str) : Prop :=
  ∀ seg ∈ splitOn '/' p, seg ≠ [] ∧ seg ≠ ".".toList ∧ seg ≠ "..".toList

/-- All logical paths, content paths and fixity paths are safe. -/
def AllPathsSafe (inv : Inv) : Prop :=
  (∀ v ver d ps p, (v, ver) ∈ inv.versions → (d, ps) ∈ ver.state → p ∈ ps → SafePath p) ∧
  (∀ d ps p, (d, ps) ∈ inv.manifest → p ∈ ps → SafePath p) ∧
  (∀ a m d ps p, (a, m) ∈ inv.fixity → (d, ps) ∈ m → p ∈ ps → SafePath p)

/-- There is an error about a path: E052, E053 (logical paths), E099, E100 (content paths). -/
def HasPathError (fs : List Fnd) : Prop :=
  HasCode fs (.E 52) ∨ HasCode fs (.E 53) ∨ HasCode fs (.E 99) ∨ HasCode fs (.E 100)

/-- The full statement, for the validation on loading. -/
def C39_full : Prop :=
  ∀ env r inv fs, finalize env r = .ok (inv, fs) → (¬ HasPathError fs ↔ AllPathsSafe r.inv)

theorem badElement_iff {e : Str} : badElement e = true ↔ e = [] ∨ e = ".".toList ∨ e = "..".toList := by
  simp [badElement, or_assoc]

theorem safePath_ne_nil {p : Str} (h : SafePath p) : p ≠ [] := by
  rintro rfl
  exact (h [] (by simp [splitOn])).1 rfl

theorem splitOn_last {p : Str} (h : p.getLast? = some '/') : [] ∈ splitOn '/' p := by
  obtain ⟨q, rfl⟩ := List.getLast?_eq_some_iff.1 h
  rw [splitOn_append]; simp [splitOn]

theorem splitOn_head {p : Str} (h : p.head? = some '/') : [] ∈ splitOn '/' p := by
  cases p with
  | nil => simp at h
  | cons c p =>
    simp only [List.head?_cons, Option.some.injEq] at h
    subst h; simp [splitOn]

/-- Checking a path reports something exactly if it is unsafe, and names it. -/
theorem checkPath_reports {c1 c2 : Nat} {p : Str} {g : List Fnd} (h : checkPath c1 c2 p = .ok g) :
    (SafePath p → g = []) ∧ (¬ SafePath p → err c1 [p] ∈ g ∨ err c2 [p] ∈ g) := by
  obtain ⟨_, rfl⟩ := checkPath_ok h
  constructor
  · intro hs
    have h1 : ¬ (p.head? = some '/' ∨ p.getLast? = some '/') := by
      rintro (h | h)
      · exact (hs _ (splitOn_head h)).1 rfl
      · exact (hs _ (splitOn_last h)).1 rfl
    have h2 : dropSlash p = p := if_neg (fun h => h1 (Or.inl h))
    rw [if_neg h1, h2, List.nil_append, List.map_eq_nil_iff, List.filter_eq_nil_iff]
    intro e he hb
    obtain ⟨a, b, c⟩ := hs e he
    rcases badElement_iff.1 hb with h | h | h
    · exact a h
    · exact b h
    · exact c h
  · intro hs
    by_cases h1 : p.head? = some '/' ∨ p.getLast? = some '/'
    · left; rw [if_pos h1]; simp
    · right
      have h2 : dropSlash p = p := if_neg (fun h => h1 (Or.inl h))
      rw [if_neg h1, h2, List.nil_append]
      unfold SafePath at hs
      push Not at hs
      obtain ⟨e, he, hb⟩ := hs
      refine List.mem_map.2 ⟨e, List.mem_filter.2 ⟨he, badElement_iff.2 ?_⟩, rfl⟩
      tauto

theorem finalize_ok {env : Env} {r : RawInv} {inv : Inv} {fs : List Fnd} (h : finalize env r = .ok (inv, fs)) :
    ∃ a b, collect (fun (e : Str × Version) => finalizeVersion (r.vm e.1) e.1) r.inv.versions = .ok a ∧
      check env r = .ok b ∧
      fs = (if r.manifestNil then [err 41 ["manifest".toList]] else []) ++
        (if r.versionsNil then [err 41 ["versions".toList]] else []) ++ a ++ b ∧
      inv = { r.inv with fixityAlgs := addFixityAlgs r.inv, paddingLength := computedPadding r.inv } := by
  unfold finalize at h
  simp only [res_bind_eq_ok] at h
  obtain ⟨a, ha, b, hb, he⟩ := h
  cases he
  exact ⟨a, b, ha, hb, rfl, rfl⟩

theorem finalizeVersion_codes {m : VMeta} {ver : Str} {g : List Fnd} (h : finalizeVersion m ver = .ok g) {x : Fnd}
    (hx : x ∈ g) : x.code = .E 104 ∨ x.code = .W 7 := by
  unfold finalizeVersion at h
  split at h
  · cases h; simp only [List.mem_singleton] at hx; subst hx; exact Or.inl rfl
  · split at h
    · cases h
    · cases h
      rcases List.mem_append.1 hx with hx | hx
      all_goals
        split at hx
        · simp only [List.mem_singleton] at hx; subst hx; exact Or.inr rfl
        · simp at hx

/-- Apart from E041, E104 and W007, the findings on loading are those of the check. -/
theorem finalize_hasCode {env : Env} {r : RawInv} {inv : Inv} {fs : List Fnd} (h : finalize env r = .ok (inv, fs)) :
    ∃ b, check env r = .ok b ∧ (∀ x ∈ b, x ∈ fs) ∧
      ∀ c, c ∉ [Code.E 41, .E 104, .W 7] → (HasCode fs c ↔ HasCode b c) := by
  obtain ⟨a, b, ha, hb, rfl, _⟩ := finalize_ok h
  refine ⟨b, hb, fun x hx => List.mem_append.2 (Or.inr hx), ?_⟩
  intro c hc
  constructor
  · rintro ⟨x, hx, rfl⟩
    simp only [List.mem_append] at hx
    rcases hx with ((hx | hx) | hx) | hx
    · split at hx
      · simp only [List.mem_singleton] at hx; subst hx; simp [err] at hc
      · simp at hx
    · split at hx
      · simp only [List.mem_singleton] at hx; subst hx; simp [err] at hc
      · simp at hx
    · obtain ⟨e, _, g, hg, hxg⟩ := (mem_collect ha x).1 hx
      rcases finalizeVersion_codes hg hxg with h | h <;> simp [h] at hc
    · exact ⟨x, hx, rfl⟩
  · rintro ⟨x, hx, rfl⟩
    exact ⟨x, List.mem_append.2 (Or.inr hx), rfl⟩

/-- every path that is checked -/
def checkedPath (inv : Inv) (c1 c2 : Nat) (p : Str) : Prop :=
  (c1 = 53 ∧ c2 = 52 ∧ ∃ v ver d ps, (v, ver) ∈ inv.versions ∧ (∃ n, verNumber v = some n) ∧
    (d, ps) ∈ ver.state ∧ p ∈ ps) ∨
  (c1 = 100 ∧ c2 = 99 ∧ ∃ d ps, (d, ps) ∈ inv.manifest ∧ p ∈ ps) ∨
  (c1 = 100 ∧ c2 = 99 ∧ ∃ a m d ps, (a, m) ∈ inv.fixity ∧ (d, ps) ∈ m ∧ p ∈ ps)

theorem checkedPath_found {env : Env} {r : RawInv} {fs : List Fnd} (h : check env r = .ok fs) {c1 c2 : Nat}
    {p : Str} (hp : checkedPath r.inv c1 c2 p) :
    ∃ g, checkPath c1 c2 p = .ok g ∧ ∀ x ∈ g, x ∈ fs := by
  have F := check_findings h
  rcases hp with ⟨rfl, rfl, v, ver, d, ps, hv, ⟨n, hn⟩, hd, hp⟩ | ⟨rfl, rfl, d, ps, hd, hp⟩ |
      ⟨rfl, rfl, a, m, d, ps, ha, hd, hp⟩
  · obtain ⟨g, hg⟩ := F.versions_ok _ hv
    obtain ⟨a, b, ha, hb, rfl⟩ := versionFnd_ok hn hg
    obtain ⟨g', hg'⟩ := collect_ok_iff.1 ⟨b, hb⟩ _ hd
    obtain ⟨g2, hg2, _⟩ := stateEntryFnd_ok hg'
    obtain ⟨g3, hg3⟩ := collect_ok_iff.1 ⟨g2, hg2⟩ _ hp
    refine ⟨g3, hg3, fun x hx => (F.mem x).2 (Or.inr (Or.inr (Or.inl ⟨_, hv, _, hg,
        List.mem_append.2 (Or.inr ((mem_collect hb x).2 ⟨_, hd, g', hg', ?_⟩))⟩)))⟩
    exact (mem_stateEntryFnd hg' x).2 (Or.inr ⟨p, hp, g3, hg3, hx⟩)
  · have hp' : p ∈ r.inv.manifest.flatMap (·.2) := List.mem_flatMap.2 ⟨_, hd, hp⟩
    obtain ⟨g, hg⟩ := F.manifest_ok p hp'
    exact ⟨g, hg, fun x hx => (F.mem x).2 (by (iterate 8 right); exact Or.inl ⟨p, hp', g, hg, hx⟩)⟩
  · have hp' : p ∈ m.flatMap (·.2) := List.mem_flatMap.2 ⟨_, hd, hp⟩
    obtain ⟨g, hg⟩ := F.fixity_ok _ ha p hp'
    exact ⟨g, hg, fun x hx => (F.mem x).2 (by (iterate 11 right); exact Or.inl ⟨_, ha, p, hp', g, hg, hx⟩)⟩

/-- **C39, every unsafe path is reported**: by an error naming it, whatever the inventory, for every content
path, fixity path and logical path of a version whose name has a number. -/
theorem C39_unsafe_reported_partial {env : Env} {r : RawInv} {inv : Inv} {fs : List Fnd}
    (h : finalize env r = .ok (inv, fs)) {p : Str} (hp : ¬ SafePath p) :
    (∀ v ver d ps, (v, ver) ∈ r.inv.versions → (∃ n, verNumber v = some n) → (d, ps) ∈ ver.state → p ∈ ps →
      err 53 [p] ∈ fs ∨ err 52 [p] ∈ fs) ∧
    (∀ d ps, (d, ps) ∈ r.inv.manifest → p ∈ ps → err 100 [p] ∈ fs ∨ err 99 [p] ∈ fs) ∧
    (∀ a m d ps, (a, m) ∈ r.inv.fixity → (d, ps) ∈ m → p ∈ ps → err 100 [p] ∈ fs ∨ err 99 [p] ∈ fs) := by
  obtain ⟨b, hb, hsub, _⟩ := finalize_hasCode h
  have key : ∀ c1 c2, checkedPath r.inv c1 c2 p → err c1 [p] ∈ fs ∨ err c2 [p] ∈ fs := by
    intro c1 c2 hc
    obtain ⟨g, hg, hx⟩ := checkedPath_found hb hc
    rcases (checkPath_reports hg).2 hp with h | h
    · exact Or.inl (hsub _ (hx _ h))
    · exact Or.inr (hsub _ (hx _ h))
  refine ⟨?_, ?_, ?_⟩
  · intro v ver d ps h1 h2 h3 h4
    exact key _ _ (Or.inl ⟨rfl, rfl, v, ver, d, ps, h1, h2, h3, h4⟩)
  · intro d ps h1 h2
    exact key _ _ (Or.inr (Or.inl ⟨rfl, rfl, d, ps, h1, h2⟩))
  · intro a m d ps h1 h2 h3
    exact key _ _ (Or.inr (Or.inr ⟨rfl, rfl, a, m, d, ps, h1, h2, h3⟩))

/-- **C39, an inventory whose version names all have numbers is free of path errors exactly if all its paths
are safe.**  Missing: logical paths of versions without a numeric name are not looked at (such a name is an
error itself), and an empty path crashes the validation (C40). -/
theorem C39_path_errors_iff_partial {env : Env} {r : RawInv} {inv : Inv} {fs : List Fnd}
    (h : finalize env r = .ok (inv, fs)) (hn : ∀ k ∈ mkeys r.inv.versions, ∃ n, verNumber k = some n) :
    ¬ HasPathError fs ↔ AllPathsSafe r.inv := by
  constructor
  · intro hno
    have hcode : ∀ c p, err c [p] ∈ fs → c ∈ [52, 53, 99, 100] → False := by
      intro c p hx hc
      apply hno
      simp only [List.mem_cons, List.not_mem_nil, or_false] at hc
      rcases hc with rfl | rfl | rfl | rfl
      · exact Or.inl ⟨_, hx, rfl⟩
      · exact Or.inr (Or.inl ⟨_, hx, rfl⟩)
      · exact Or.inr (Or.inr (Or.inl ⟨_, hx, rfl⟩))
      · exact Or.inr (Or.inr (Or.inr ⟨_, hx, rfl⟩))
    refine ⟨?_, ?_, ?_⟩
    · intro v ver d ps p h1 h2 h3
      by_contra hp
      rcases (C39_unsafe_reported_partial h hp).1 v ver d ps h1 (hn v (mem_mkeys_of_mem h1)) h2 h3 with h | h
      · exact hcode _ _ h (by simp)
      · exact hcode _ _ h (by simp)
    · intro d ps p h1 h2
      by_contra hp
      rcases (C39_unsafe_reported_partial h hp).2.1 d ps h1 h2 with h | h
      · exact hcode _ _ h (by simp)
      · exact hcode _ _ h (by simp)
    · intro a m d ps p h1 h2 h3
      by_contra hp
      rcases (C39_unsafe_reported_partial h hp).2.2 a m d ps h1 h2 h3 with h | h
      · exact hcode _ _ h (by simp)
      · exact hcode _ _ h (by simp)
  · rintro ⟨hs1, hs2, hs3⟩ herr
    obtain ⟨b, hb, hsub, hiff⟩ := finalize_hasCode h
    have F := check_findings hb
    obtain ⟨x, hx, hcode⟩ : ∃ x ∈ b, x.code = .E 52 ∨ x.code = .E 53 ∨ x.code = .E 99 ∨ x.code = .E 100 := by
      unfold HasPathError at herr
      rw [hiff _ (by simp), hiff _ (by simp), hiff _ (by simp), hiff _ (by simp)] at herr
      rcases herr with ⟨x, hx, h⟩ | ⟨x, hx, h⟩ | ⟨x, hx, h⟩ | ⟨x, hx, h⟩ <;> exact ⟨x, hx, by tauto⟩
    have hmeta : x.code ∈ [Code.E 52, .E 53, .E 99, .E 100] := by simpa using hcode
    rcases F.tagged hx with h | h | h | h | h | h | h | h | h | h | h | h | h
    case inr.inr.inl =>
      obtain ⟨h1, e, he, g, hg, hxg⟩ := h
      obtain ⟨n, hn⟩ := hn e.1 (mem_mkeys_of_mem (v := e.2) he)
      obtain ⟨a, b, ha, hb, rfl⟩ := versionFnd_ok hn hg
      rcases List.mem_append.1 hxg with hx | hx
      · rcases metaFnd_codes ha hx with hc | ⟨_, hc⟩
        · rcases hcode with h | h | h | h <;> rw [h] at hc <;> simp at hc
        · rw [hc] at hcode; simp at hcode
      · obtain ⟨s, hs, g, hg, hxg⟩ := (mem_collect hb x).1 hx
        rcases (mem_stateEntryFnd hg x).1 hxg with ⟨_, ⟨rfl, _⟩ | ⟨rfl, _⟩⟩ | ⟨p, hp, g, hg, hxg⟩
        · simp [err] at hcode
        · simp [err] at hcode
        · rw [(checkPath_reports hg).1 (hs1 e.1 e.2 s.1 s.2 p he hs hp)] at hxg
          simp at hxg
    case inr.inr.inr.inr.inr.inr.inr.inr.inl =>
      obtain ⟨h1, p, hp, g, hg, hxg⟩ := h
      obtain ⟨e, he, hp⟩ := List.mem_flatMap.1 hp
      rw [(checkPath_reports hg).1 (hs2 e.1 e.2 p he hp)] at hxg
      simp at hxg
    case inr.inr.inr.inr.inr.inr.inr.inr.inr.inr.inr.inl =>
      obtain ⟨h1, a, ha, p, hp, g, hg, hxg⟩ := h
      obtain ⟨e, he, hp⟩ := List.mem_flatMap.1 hp
      rw [(checkPath_reports hg).1 (hs3 a.1 a.2 e.1 e.2 p ha he hp)] at hxg
      simp at hxg
    all_goals
      obtain ⟨h1, h2⟩ := h
      rcases hcode with hc | hc | hc | hc <;> rw [hc] at h1 <;> simp at h1

/-- **C39, what is accepted is safe.** With neither a version-name error nor a path error, all paths are
safe. -/
theorem C39_accepted_safe {env : Env} {r : RawInv} {inv : Inv} {fs : List Fnd}
    (h : finalize env r = .ok (inv, fs)) (h104 : ¬ HasCode fs (.E 104)) (hp : ¬ HasPathError fs) :
    AllPathsSafe r.inv := by
  refine (C39_path_errors_iff_partial h ?_).1 hp
  intro k hk
  obtain ⟨a, b, ha, hb, rfl, _⟩ := finalize_ok h
  obtain ⟨⟨k', ver⟩, he, rfl⟩ := List.mem_map.1 hk
  cases hn : verNumber k' with
  | some n => exact ⟨n, rfl⟩
  | none =>
    exfalso
    apply h104
    refine ⟨err 104 [k'], ?_, rfl⟩
    have : err 104 [k'] ∈ a := (mem_collect ha _).2 ⟨_, he, [err 104 [k']], by
      unfold finalizeVersion; rw [hn], by simp⟩
    exact List.mem_append.2 (Or.inl (List.mem_append.2 (Or.inr this)))

/-- an unsafe path in a version named `vx` is not reported as such -/
theorem C39_full_fails : ¬ C39_full := by
  intro hf
  let r : RawInv := { inv := { exInv with versions := [("vx".toList, exVer ["../a".toList])] }, vmeta := [] }
  have hs : (finalize exEnv r).toOption.any (fun x => x.2.all (fun y => decide (y.code ∉ [Code.E 52, .E 53, .E 99, .E 100])))
    = true := by decide
  cases h : finalize exEnv r with
  | error e => rw [h] at hs; cases hs
  | ok x =>
    obtain ⟨inv, fs⟩ := x
    rw [h] at hs
    have hs : ∀ y ∈ fs, y.code ∉ [Code.E 52, .E 53, .E 99, .E 100] := by
      simpa [Except.toOption] using hs
    have hno : ¬ HasPathError fs := by
      rintro (⟨x, hx, h⟩ | ⟨x, hx, h⟩ | ⟨x, hx, h⟩ | ⟨x, hx, h⟩) <;> exact hs x hx (by simp [h])
    have := ((hf _ _ _ _ h).1 hno).1 "vx".toList (exVer ["../a".toList]) "d1".toList ["../a".toList] "../a".toList
      (List.mem_singleton.2 rfl) (List.mem_singleton.2 rfl) (List.mem_singleton.2 rfl)
    exact (this "..".toList (by decide)).2.2 rfl

/-- the hypotheses are met by the two-version object -/
example : ∃ inv fs, finalize exEnv exRaw = .ok (inv, fs) ∧ AllPathsSafe exRaw.inv := by
  have hs : (finalize exEnv exRaw).toOption.any
      (fun x => x.2.all (fun y => decide (y.code ∉ [Code.E 104, .E 52, .E 53, .E 99, .E 100]))) = true := by decide
  cases h : finalize exEnv exRaw with
  | error e => rw [h] at hs; cases hs
  | ok x =>
    obtain ⟨inv, fs⟩ := x
    rw [h] at hs
    have hs : ∀ y ∈ fs, y.code ∉ [Code.E 104, .E 52, .E 53, .E 99, .E 100] := by
      simpa [Except.toOption] using hs
    refine ⟨inv, fs, rfl, C39_accepted_safe h ?_ ?_⟩
    · rintro ⟨x, hx, h⟩; exact hs x hx (by simp [h])
    · rintro (⟨x, hx, h⟩ | ⟨x, hx, h⟩ | ⟨x, hx, h⟩ | ⟨x, hx, h⟩) <;> exact hs x hx (by simp [h])

/-! ## C40 -/

/-- The full statement: validating a decoded inventory never crashes. -/
def C40_full : Prop := ∀ env r, ∃ x, finalize env r = .ok x

/-- What makes the validation crash. -/
def Crashes (r : RawInv) : Prop :=
  r.headNil = true ∨
  (∃ v ver, (v, ver) ∈ r.inv.versions ∧ (r.vm v).isNil = true) ∨
  (∃ v ver, (v, ver) ∈ r.inv.versions ∧ (∃ n, verNumber v = some n) ∧
    ((r.vm v).createdNil = true ∨ ∃ d ps, (d, ps) ∈ ver.state ∧ [] ∈ ps)) ∨
  (∃ v ver, (v, ver) ∈ r.inv.versions ∧ verNumber v = none ∧ (r.vm v).stateNil = true) ∨
  (∃ d ps, (d, ps) ∈ r.inv.manifest ∧ [] ∈ ps) ∨
  (∃ a m d ps, (a, m) ∈ r.inv.fixity ∧ (d, ps) ∈ m ∧ [] ∈ ps)

theorem res_err_iff {α : Type} {x : Res α} : (∃ e, x = .error e) ↔ ¬ ∃ a, x = .ok a := by
  cases x <;> simp

theorem checkPath_isOk {c1 c2 : Nat} {p : Str} : (∃ g, checkPath c1 c2 p = .ok g) ↔ p ≠ [] := by
  unfold checkPath
  by_cases h : p = [] <;> simp [h]

theorem bind_ok_iff {α β : Type} {x : Res α} {f : α → Res β} :
    (∃ b, (x >>= f) = .ok b) ↔ ∃ a, x = .ok a ∧ ∃ b, f a = .ok b := by
  constructor
  · rintro ⟨b, h⟩
    obtain ⟨a, h1, h2⟩ := res_bind_eq_ok.1 h
    exact ⟨a, h1, b, h2⟩
  · rintro ⟨a, h1, b, h2⟩
    exact ⟨b, res_bind_eq_ok.2 ⟨a, h1, h2⟩⟩

theorem stateEntryFnd_isOk {man : DMap} {ver : Str} {e : Str × List Str} :
    (∃ g, stateEntryFnd man ver e = .ok g) ↔ [] ∉ e.2 := by
  unfold stateEntryFnd
  simp only [bind_ok_iff]
  constructor
  · rintro ⟨a, h, _⟩ hc
    exact checkPath_isOk.1 (collect_ok_iff.1 ⟨a, h⟩ _ hc) rfl
  · intro h
    obtain ⟨a, ha⟩ := collect_ok_iff.2 (fun p hp => (checkPath_isOk (c1 := 53) (c2 := 52) (p := p)).2
      (fun hc => h (hc ▸ hp)))
    exact ⟨a, ha, _, rfl⟩

theorem versionFnd_isOk {env : Env} {r : RawInv} {e : Str × Version} :
    (∃ g, versionFnd env r e = .ok g) ↔
      ((∃ n, verNumber e.1 = some n) → (r.vm e.1).createdNil = false ∧ ∀ d ps, (d, ps) ∈ e.2.state → [] ∉ ps) := by
  unfold versionFnd
  cases hn : verNumber e.1 with
  | none => simp
  | some n =>
    simp only [bind_ok_iff]
    constructor
    · rintro ⟨a, ha, b, hb, _⟩ _
      constructor
      · unfold metaFnd at ha
        split at ha
        · cases ha
        · rename_i hc; simpa using hc
      · intro d ps hd
        exact stateEntryFnd_isOk.1 (collect_ok_iff.1 ⟨b, hb⟩ (d, ps) hd)
    · intro h
      obtain ⟨h1, h2⟩ := h ⟨n, rfl⟩
      obtain ⟨b, hb⟩ := collect_ok_iff.2 (fun (x : Str × List Str) hx =>
        (stateEntryFnd_isOk (man := r.inv.manifest) (ver := e.1)).2 (h2 x.1 x.2 hx))
      exact ⟨_, by unfold metaFnd; rw [if_neg (by simp [h1])], b, hb, _, rfl⟩

theorem logicalVersionFnd_isOk {r : RawInv} {e : Str × Version} :
    (∃ g, logicalVersionFnd r e = .ok g) ↔
      ¬ ((r.vm e.1).isNil = true ∨ ((r.vm e.1).stateNil = true ∧ verNumber e.1 = none)) := by
  unfold logicalVersionFnd
  split <;> simp_all

theorem finalizeVersion_isOk {m : VMeta} {v : Str} :
    (∃ g, finalizeVersion m v = .ok g) ↔ ¬ ((∃ n, verNumber v = some n) ∧ m.isNil = true) := by
  unfold finalizeVersion
  cases hn : verNumber v with
  | none => simp
  | some n =>
    simp only
    split <;> simp_all

theorem checkManifest_isOk {inv : Inv} :
    (∃ g, checkManifest inv = .ok g) ↔ ∀ d ps, (d, ps) ∈ inv.manifest → [] ∉ ps := by
  unfold checkManifest
  simp only [bind_ok_iff]
  constructor
  · rintro ⟨a, ha, _⟩ d ps hd hp
    exact checkPath_isOk.1 (collect_ok_iff.1 ⟨a, ha⟩ [] (List.mem_flatMap.2 ⟨_, hd, hp⟩)) rfl
  · intro h
    obtain ⟨a, ha⟩ := (collect_ok_iff (f := checkPath 100 99) (l := inv.manifest.flatMap (·.2))).2 (fun p hp =>
      checkPath_isOk.2 (by
        rintro rfl
        obtain ⟨e, he, hp⟩ := List.mem_flatMap.1 hp
        exact h e.1 e.2 he hp))
    exact ⟨a, ha, _, rfl⟩

theorem checkFixity_isOk {inv : Inv} :
    (∃ g, checkFixity inv = .ok g) ↔ ∀ a m d ps, (a, m) ∈ inv.fixity → (d, ps) ∈ m → [] ∉ ps := by
  rw [checkFixity_eq, collect_ok_iff]
  constructor
  · intro h a m d ps ha hd hp
    obtain ⟨g, hg⟩ := h _ ha
    obtain ⟨pf, hpf, _⟩ := fixityAlgFnd_ok hg
    exact checkPath_isOk.1 (collect_ok_iff.1 ⟨pf, hpf⟩ [] (List.mem_flatMap.2 ⟨_, hd, hp⟩)) rfl
  · intro h e he
    obtain ⟨a, ha⟩ := (collect_ok_iff (f := checkPath 100 99) (l := e.2.flatMap (·.2))).2 (fun p hp =>
      checkPath_isOk.2 (by
        rintro rfl
        obtain ⟨x, hx, hp⟩ := List.mem_flatMap.1 hp
        exact h e.1 e.2 x.1 x.2 he hx hp))
    exact ⟨_, by unfold fixityAlgFnd; rw [ha]; rfl⟩

theorem checkVersions_isOk {env : Env} {r : RawInv} :
    (∃ g, checkVersions env r = .ok g) ↔ (∀ e ∈ r.inv.versions, ∃ g, versionFnd env r e = .ok g) ∧
      r.headNil = false ∧ ∀ e ∈ r.inv.versions, ∃ g, logicalVersionFnd r e = .ok g := by
  unfold checkVersions
  simp only [bind_ok_iff]
  constructor
  · rintro ⟨a, ha, b, hb⟩
    split at hb
    · cases hb
    · rename_i hn
      obtain ⟨l, hl, _⟩ := res_bind_eq_ok.1 hb
      exact ⟨collect_ok_iff.1 ⟨a, ha⟩, by simpa using hn, collect_ok_iff.1 ⟨l, hl⟩⟩
  · rintro ⟨h1, h2, h3⟩
    obtain ⟨a, ha⟩ := collect_ok_iff.2 h1
    obtain ⟨l, hl⟩ := collect_ok_iff.2 h3
    refine ⟨a, ha, ?_⟩
    rw [if_neg (by simp [h2]), hl]
    exact ⟨_, rfl⟩

/-- **C40, exactly when validation crashes**: a missing or null head, a null version, a version without
`created`, a version with a non-numeric name and no state, or an empty path. -/
theorem C40_crash_iff (env : Env) (r : RawInv) : (∃ e, finalize env r = .error e) ↔ Crashes r := by
  have hok : (∃ x, finalize env r = .ok x) ↔
      (∀ e ∈ r.inv.versions, ∃ g, finalizeVersion (r.vm e.1) e.1 = .ok g) ∧
      (∃ g, checkVersions env r = .ok g) ∧ (∃ g, checkManifest r.inv = .ok g) ∧
      (∃ g, checkFixity r.inv = .ok g) := by
    unfold finalize check
    simp only [bind_ok_iff]
    constructor
    · rintro ⟨a, ha, b, hb, _⟩
      obtain ⟨x, hx, hb⟩ := res_bind_eq_ok.1 hb
      obtain ⟨y, hy, hb⟩ := res_bind_eq_ok.1 hb
      obtain ⟨z, hz, hb⟩ := res_bind_eq_ok.1 hb
      exact ⟨collect_ok_iff.1 ⟨a, ha⟩, ⟨x, hx⟩, ⟨y, hy⟩, ⟨z, hz⟩⟩
    · rintro ⟨h1, ⟨x, hx⟩, ⟨y, hy⟩, ⟨z, hz⟩⟩
      obtain ⟨a, ha⟩ := (collect_ok_iff
        (f := fun (e : Str × Version) => finalizeVersion (r.vm e.1) e.1)).2 h1
      refine ⟨a, ha, x ++ y ++ z ++ checkScalars env r, ?_, _, rfl⟩
      rw [hx, hy, hz]; rfl
  rw [res_err_iff, hok, checkVersions_isOk, checkManifest_isOk, checkFixity_isOk]
  simp only [finalizeVersion_isOk, versionFnd_isOk, logicalVersionFnd_isOk]
  constructor
  · intro h
    by_contra hc
    apply h
    unfold Crashes at hc
    push Not at hc
    obtain ⟨c1, c2, c3, c4, c5, c6⟩ := hc
    refine ⟨?_, ⟨?_, ?_, ?_⟩, ?_, ?_⟩
    · rintro e he ⟨_, h⟩; exact c2 e.1 e.2 he h
    · intro e he hn
      refine ⟨by simpa using (c3 e.1 e.2 he hn).1, (c3 e.1 e.2 he hn).2⟩
    · simpa using c1
    · rintro e he (h | ⟨h1, h2⟩)
      · exact c2 e.1 e.2 he h
      · exact c4 e.1 e.2 he h2 h1
    · exact c5
    · exact c6
  · rintro hc ⟨h1, ⟨h2, h3, h4⟩, h5, h6⟩
    rcases hc with h | ⟨v, ver, hv, h⟩ | ⟨v, ver, hv, hn, h | ⟨d, ps, hd, hp⟩⟩ | ⟨v, ver, hv, hn, h⟩ |
      ⟨d, ps, hd, hp⟩ | ⟨a, m, d, ps, ha, hd, hp⟩
    · rw [h3] at h; cases h
    · exact h4 _ hv (Or.inl h)
    · have := (h2 _ hv hn).1; rw [h] at this; cases this
    · exact (h2 _ hv hn).2 d ps hd hp
    · exact h4 _ hv (Or.inr ⟨h, hn⟩)
    · exact h5 d ps hd hp
    · exact h6 a m d ps ha hd hp

/-- **C40, the part that holds**: an inventory with a head, complete versions and no empty path is
validated without a crash. -/
theorem C40_no_crash_partial (env : Env) (r : RawInv) (h1 : r.headNil = false)
    (h2 : ∀ v ver, (v, ver) ∈ r.inv.versions →
      (r.vm v).isNil = false ∧ (r.vm v).createdNil = false ∧ (r.vm v).stateNil = false)
    (h3 : ∀ v ver d ps, (v, ver) ∈ r.inv.versions → (d, ps) ∈ ver.state → [] ∉ ps)
    (h4 : ∀ d ps, (d, ps) ∈ r.inv.manifest → [] ∉ ps)
    (h5 : ∀ a m d ps, (a, m) ∈ r.inv.fixity → (d, ps) ∈ m → [] ∉ ps) :
    ∃ x, finalize env r = .ok x := by
  by_contra hc
  rcases (C40_crash_iff env r).1 (res_err_iff.2 hc) with h | ⟨v, ver, hv, h⟩ |
      ⟨v, ver, hv, hn, h | ⟨d, ps, hd, hp⟩⟩ | ⟨v, ver, hv, hn, h⟩ | ⟨d, ps, hd, hp⟩ | ⟨a, m, d, ps, ha, hd, hp⟩
  · rw [h1] at h; cases h
  · rw [(h2 v ver hv).1] at h; cases h
  · rw [(h2 v ver hv).2.1] at h; cases h
  · exact h3 v ver d ps hv hd hp
  · rw [(h2 v ver hv).2.2] at h; cases h
  · exact h4 d ps hd hp
  · exact h5 a m d ps ha hd hp

/-- A missing head, for any inventory whatsoever, crashes the validation. -/
theorem C40_full_fails_head (env : Env) (r : RawInv) (h : r.headNil = true) :
    ∃ e, finalize env r = .error e := (C40_crash_iff env r).2 (Or.inl h)

/-- Any empty content path crashes the validation, which has a message for that very case. -/
theorem C40_full_fails_empty_path (env : Env) (r : RawInv) {d : Str} {ps : List Str}
    (h : (d, ps) ∈ r.inv.manifest) (hp : [] ∈ ps) : ∃ e, finalize env r = .error e :=
  (C40_crash_iff env r).2 (Or.inr (Or.inr (Or.inr (Or.inr (Or.inl ⟨d, ps, h, hp⟩)))))

theorem C40_full_fails : ¬ C40_full := by
  intro hf
  obtain ⟨x, hx⟩ := hf exEnv (exMan [[]])
  obtain ⟨e, he⟩ := C40_full_fails_empty_path exEnv (exMan [[]]) (d := "d1".toList) (ps := [[]])
    (List.mem_singleton.2 rfl) (by simp)
  rw [hx] at he; cases he

example : ∃ x, finalize exEnv exRaw = .ok x := by
  refine C40_no_crash_partial exEnv exRaw rfl ?_ ?_ ?_ ?_
  · intro v ver _
    have e : exRaw.vm v = {} := rfl
    rw [e]; exact ⟨rfl, rfl, rfl⟩
  · intro v ver d ps hv hd hp
    have : ∀ e ∈ exRaw.inv.versions, ∀ s ∈ e.2.state, [] ∉ s.2 := by decide
    exact this _ hv _ hd hp
  · intro d ps hd hp
    have : ∀ e ∈ exRaw.inv.manifest, [] ∉ e.2 := by decide
    exact this _ hd hp
  · intro a m d ps ha hd hp
    have : ∀ e ∈ exRaw.inv.fixity, ∀ s ∈ e.2, [] ∉ s.2 := by decide
    exact this _ ha _ hd hp

/-- a case of `C37_reported_is_conflict_partial` -/
example : LogicalConflict (exOne ["b".toList, "a/x".toList, "a".toList]).inv := by
  have hs : (check exEnv (exOne ["b".toList, "a/x".toList, "a".toList])).toOption.any
    (fun fs => fs.any (fun x => decide (x.code = .E 95))) = true := by decide
  cases h : check exEnv (exOne ["b".toList, "a/x".toList, "a".toList]) with
  | error e => rw [h] at hs; cases hs
  | ok fs =>
    rw [h] at hs
    obtain ⟨x, hx, hc⟩ := List.any_eq_true.1 (show fs.any _ = true from hs)
    refine C37_reported_is_conflict_partial h ?_ ⟨x, hx, of_decide_eq_true hc⟩
    have : ∀ e ∈ (exOne ["b".toList, "a/x".toList, "a".toList]).inv.versions, ∀ p ∈ statePaths e.2.state, p.getLast? ≠ some '/' := by
      decide
    exact fun v ver hv => this (v, ver) hv

/-- a case of `C38_reported_is_conflict_partial` -/
example : ∃ p q, p ∈ (exMan ["c/".toList, "c/".toList]).inv.manifest.flatMap (·.2) ∧
    q ∈ (exMan ["c/".toList, "c/".toList]).inv.manifest.flatMap (·.2) ∧ q.getLast? = some '/' ∧
    UnderDir (trimRight q "/".toList) p := by
  have hs : (check exEnv (exMan ["c/".toList, "c/".toList])).toOption.any
    (fun fs => fs.any (fun x => decide (x.code = .E 101))) = true := by decide
  cases h : check exEnv (exMan ["c/".toList, "c/".toList]) with
  | error e => rw [h] at hs; cases hs
  | ok fs =>
    rw [h] at hs
    obtain ⟨x, hx, hc⟩ := List.any_eq_true.1 (show fs.any _ = true from hs)
    exact C38_reported_is_conflict_partial h ⟨x, hx, of_decide_eq_true hc⟩

end Gocfl
