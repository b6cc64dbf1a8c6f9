import Verif.Props.PathChecks

/-!
# Comparing inventories with files and with each other (C41–C43)
-/

namespace Gocfl

/-! ## C41 -/

/-- Among the files found, `f` has the digest `d` (written in either letter case). -/
def FileHas (cs : DMap) (d f : Str) : Prop :=
  ∃ d' names, (d', names) ∈ cs ∧ toLower d' = toLower d ∧ f ∈ names

/-- Every file named in the manifest or the fixity block exists and has the digest recorded there. -/
def FilesMatch (inv : Inv) (fm : FileManifest) : Prop :=
  (∀ d files f, (d, files) ∈ inv.manifest → f ∈ files → ∃ cs, (inv.digestAlg, cs) ∈ fm ∧ FileHas cs d f) ∧
  (∀ a m d files f, (a, m) ∈ inv.fixity → (d, files) ∈ m → f ∈ files → ∃ cs, (a, cs) ∈ fm ∧ FileHas cs d f)

/-- Digests as computed from files: maps, digests in lower case. -/
def Computed (fm : FileManifest) : Prop :=
  (mkeys fm).Nodup ∧ ∀ a cs, (a, cs) ∈ fm → (mkeys cs).Nodup ∧ ∀ d ∈ mkeys cs, toLower d = d

/-- The full statement. -/
def C41_full : Prop :=
  ∀ inv fm fs, Computed fm → checkFiles inv fm = .ok fs → (fs = [] ↔ FilesMatch inv fm)

theorem fileHas_iff {cs : DMap} (hn : (mkeys cs).Nodup) (hl : ∀ d ∈ mkeys cs, toLower d = d) (d f : Str) :
    FileHas cs d f ↔ ∃ names, mget cs (toLower d) = some names ∧ f ∈ names := by
  constructor
  · rintro ⟨d', names, h1, h2, h3⟩
    rw [hl d' (mem_mkeys_of_mem h1)] at h2
    subst h2
    exact ⟨names, mget_of_mem hn h1, h3⟩
  · rintro ⟨names, h1, h2⟩
    have := mem_of_mget h1
    exact ⟨_, names, this, hl _ (mem_mkeys_of_mem this), h2⟩

theorem fixity_lookup {cs : DMap} (hl : ∀ d ∈ mkeys cs, toLower d = d) (d : Str) :
    ((mget cs d).orElse (fun _ => mget cs (toLower d))) = mget cs (toLower d) := by
  cases h : mget cs d with
  | none => rfl
  | some n =>
    rw [hl d (mem_mkeys_of_mem (mem_of_mget h)), h]; rfl

theorem collect_nil_iff {α : Type} {f : α → Res (List Fnd)} {l : List α} {fs : List Fnd}
    (h : collect f l = .ok fs) : fs = [] ↔ ∀ a ∈ l, f a = .ok [] := by
  constructor
  · rintro rfl a ha
    obtain ⟨g, hg⟩ := collect_ok_iff.1 ⟨_, h⟩ a ha
    cases g with
    | nil => exact hg
    | cons x g => have := (mem_collect h x).2 ⟨a, ha, _, hg, by simp⟩; simp at this
  · intro hall
    rw [List.eq_nil_iff_forall_not_mem]
    intro x hx
    obtain ⟨a, ha, g, hg, hxg⟩ := (mem_collect h x).1 hx
    rw [hall a ha] at hg; cases hg; simp at hxg

theorem filesFnd_nil {files names : List Str} {c : Nat} :
    ((files.filter (fun f => !decide (f ∈ names))).map (fun f => err c [f])) = [] ↔ ∀ f ∈ files, f ∈ names := by
  rw [List.map_eq_nil_iff, List.filter_eq_nil_iff]
  simp

theorem checkManifestFiles_nil {cs : DMap} (hn : (mkeys cs).Nodup) (hl : ∀ d ∈ mkeys cs, toLower d = d)
    {e : Str × List Str} : checkManifestFiles cs e = [] ↔
      (toLower e.1 ∈ mkeys cs) ∧ ∀ f ∈ e.2, FileHas cs e.1 f := by
  unfold checkManifestFiles
  cases h : mget cs (toLower e.1) with
  | none => simp [mget_eq_none_iff.1 h]
  | some names =>
    simp only [filesFnd_nil]
    have hk : toLower e.1 ∈ mkeys cs := mem_mkeys_of_mem (mem_of_mget h)
    simp only [hk, true_and, fileHas_iff hn hl, h, Option.some.injEq, exists_eq_left']

theorem checkFixityFiles_nil {cs : DMap} (hn : (mkeys cs).Nodup) (hl : ∀ d ∈ mkeys cs, toLower d = d)
    {e : Str × List Str} : checkFixityFiles cs e = [] ↔
      (toLower e.1 ∈ mkeys cs) ∧ ∀ f ∈ e.2, FileHas cs e.1 f := by
  unfold checkFixityFiles
  rw [fixity_lookup hl]
  cases h : mget cs (toLower e.1) with
  | none => simp [mget_eq_none_iff.1 h]
  | some names =>
    simp only [filesFnd_nil]
    have hk : toLower e.1 ∈ mkeys cs := mem_mkeys_of_mem (mem_of_mget h)
    simp only [hk, true_and, fileHas_iff hn hl, h, Option.some.injEq, exists_eq_left']

/-- **C41.** When digests of files were computed at all and no digest is listed without a file, the check
reports nothing exactly if every manifest and every fixity entry names a file with that digest.  Missing: an
object in which no file at all is found is not checked. -/
theorem C41_files_match_iff_partial {inv : Inv} {fm : FileManifest} {fs : List Fnd} (hc : Computed fm)
    (h : checkFiles inv fm = .ok fs) (hne : fm ≠ [])
    (hm : ∀ d files, (d, files) ∈ inv.manifest → files ≠ [])
    (hf : ∀ a m d files, (a, m) ∈ inv.fixity → (d, files) ∈ m → files ≠ []) :
    fs = [] ↔ FilesMatch inv fm := by
  unfold checkFiles at h
  cases hcs : mget fm inv.digestAlg with
  | none => rw [hcs] at h; simp [hne] at h
  | some cs =>
    rw [hcs] at h
    simp only [res_bind_eq_ok] at h
    obtain ⟨g, hg, he⟩ := h
    cases he
    have hwf := hc.2 _ _ (mem_of_mget hcs)
    have hkey : ∀ (cs : DMap) (d : Str) (files : List Str), (mkeys cs).Nodup → (∀ d ∈ mkeys cs, toLower d = d) →
        files ≠ [] → (∀ f ∈ files, FileHas cs d f) → toLower d ∈ mkeys cs := by
      intro cs d files h1 h2 h3 h4
      obtain ⟨f, hf⟩ := List.exists_mem_of_ne_nil _ h3
      obtain ⟨names, hn, _⟩ := (fileHas_iff h1 h2 d f).1 (h4 f hf)
      exact mem_mkeys_of_mem (mem_of_mget hn)
    rw [List.append_eq_nil_iff, collect_nil_iff hg, List.flatMap_eq_nil_iff]
    unfold FilesMatch
    apply and_congr
    · constructor
      · intro hall d files f hd hf
        exact ⟨cs, mem_of_mget hcs, ((checkManifestFiles_nil hwf.1 hwf.2).1 (hall _ hd)).2 f hf⟩
      · intro hall e he
        have h2 : ∀ f ∈ e.2, FileHas cs e.1 f := by
          intro f hf
          obtain ⟨cs', hcs', hh⟩ := hall e.1 e.2 f he hf
          have := mget_of_mem hc.1 hcs'
          rw [hcs] at this; cases this; exact hh
        exact (checkManifestFiles_nil hwf.1 hwf.2).2 ⟨hkey cs e.1 e.2 hwf.1 hwf.2 (hm e.1 e.2 he) h2, h2⟩
    · constructor
      · intro hall a m d files f ha hd hf
        have := hall _ ha
        unfold checkFixityAlg at this
        cases hca : mget fm a with
        | none => rw [hca] at this; cases this
        | some cs' =>
          rw [hca] at this
          have hwf' := hc.2 _ _ (mem_of_mget hca)
          simp only [Except.ok.injEq, List.flatMap_eq_nil_iff] at this
          exact ⟨cs', mem_of_mget hca, ((checkFixityFiles_nil hwf'.1 hwf'.2).1 (this _ hd)).2 f hf⟩
      · intro hall a ha
        obtain ⟨g', hg'⟩ := collect_ok_iff.1 ⟨g, hg⟩ a ha
        unfold checkFixityAlg at hg' ⊢
        cases hca : mget fm a.1 with
        | none => rw [hca] at hg'; cases hg'
        | some cs' =>
          have hwf' := hc.2 _ _ (mem_of_mget hca)
          simp only [Except.ok.injEq, List.flatMap_eq_nil_iff]
          intro e he
          have h2 : ∀ f ∈ e.2, FileHas cs' e.1 f := by
            intro f hf
            obtain ⟨cs2, hcs2, hh⟩ := hall a.1 a.2 e.1 e.2 f ha he hf
            have := mget_of_mem hc.1 hcs2
            rw [hca] at this; cases this; exact hh
          exact (checkFixityFiles_nil hwf'.1 hwf'.2).2
            ⟨hkey cs' e.1 e.2 hwf'.1 hwf'.2 (hf a.1 a.2 e.1 e.2 ha he) h2, h2⟩

/-- **C41, no silent skipping of algorithms**: unless no digests were computed at all, the check completes
only if digests were computed for the manifest's algorithm and for every fixity algorithm. -/
theorem C41_algorithms_present {inv : Inv} {fm : FileManifest} {fs : List Fnd} (hne : fm ≠ [])
    (h : checkFiles inv fm = .ok fs) :
    inv.digestAlg ∈ mkeys fm ∧ ∀ a m, (a, m) ∈ inv.fixity → a ∈ mkeys fm := by
  unfold checkFiles at h
  cases hcs : mget fm inv.digestAlg with
  | none => rw [hcs] at h; simp [hne] at h
  | some cs =>
    rw [hcs] at h
    simp only [res_bind_eq_ok] at h
    obtain ⟨g, hg, _⟩ := h
    refine ⟨mem_mkeys_of_mem (mem_of_mget hcs), ?_⟩
    intro a m ha
    obtain ⟨g', hg'⟩ := collect_ok_iff.1 ⟨g, hg⟩ _ ha
    unfold checkFixityAlg at hg'
    cases hca : mget fm a with
    | none => rw [hca] at hg'; cases hg'
    | some cs' => exact mem_mkeys_of_mem (mem_of_mget hca)

/-- **C41 fails** for every inventory if no file at all is found: nothing is reported missing. -/
theorem C41_full_fails_no_files (inv : Inv) : checkFiles inv [] = .ok [] := rfl

theorem C41_full_fails : ¬ C41_full := by
  intro hf
  have := (hf exInv [] [] ⟨by simp, by simp⟩ (C41_full_fails_no_files exInv)).1 rfl
  obtain ⟨cs, h, _⟩ := this.1 "d1".toList ["v1/content/a".toList] "v1/content/a".toList (by simp [exInv]) (by simp)
  simp at h

/-- the files of the two-version object, one of them damaged -/
def exFiles : FileManifest :=
  [("sha512".toList, [("d1".toList, ["v1/content/a".toList]), ("d9".toList, ["v2/content/b".toList])])]

theorem exFiles_computed : Computed exFiles := by
  refine ⟨by decide, ?_⟩
  intro a cs h
  have h := List.mem_singleton.1 h
  cases h
  exact ⟨by decide, by decide⟩

example : ∃ fs, checkFiles exInv exFiles = .ok fs ∧ fs ≠ [] := by
  have hs : (checkFiles exInv exFiles).isOk = true := by decide
  cases h : checkFiles exInv exFiles with
  | error e => rw [h] at hs; cases hs
  | ok fs =>
    refine ⟨fs, rfl, ?_⟩
    rw [Ne, C41_files_match_iff_partial exFiles_computed h (by simp [exFiles])
      (fun d files hd => by
        have : ∀ e ∈ exInv.manifest, e.2 ≠ [] := by decide
        exact this _ hd)
      (fun a m d files ha => by simp [exInv] at ha)]
    rintro ⟨h1, _⟩
    obtain ⟨cs, hcs, d', names, hd', hl, hf⟩ := h1 "d2".toList ["v2/content/b".toList] "v2/content/b".toList
      (by simp [exInv]) (by simp)
    have hcs := List.mem_singleton.1 hcs
    cases hcs
    simp only [List.mem_cons, Prod.mk.injEq, List.not_mem_nil, or_false] at hd'
    rcases hd' with ⟨rfl, rfl⟩ | ⟨rfl, rfl⟩
    · exact absurd hf (by decide)
    · exact absurd hl (by decide)

/-! ## C42 -/

/-- Two states map the same logical paths to the same digests. -/
def SameMapping (s t : DMap) : Prop :=
  ∀ p d, (∃ ps, (d, ps) ∈ s ∧ p ∈ ps) ↔ (∃ ps, (d, ps) ∈ t ∧ p ∈ ps)

/-- The full statement. -/
def C42_full : Prop :=
  ∀ v w : Version, (mkeys v.state).Nodup → (mkeys w.state).Nodup →
    (equalState v w = true ↔ SameMapping v.state w.state)

theorem slicesCompact_nodup {l : List Str} (h : l.Pairwise (fun a b => strLe a b = true)) :
    (slicesCompact l).Nodup := by
  induction l with
  | nil => simp [slicesCompact]
  | cons a l ih =>
    cases l with
    | nil => simp [slicesCompact]
    | cons b l =>
      have h1 := List.pairwise_cons.1 h
      have h2 := List.pairwise_cons.1 h1.2
      simp only [slicesCompact]
      split
      · exact ih h1.2
      · rename_i hab
        refine List.nodup_cons.2 ⟨?_, ih h1.2⟩
        rw [mem_slicesCompact]
        intro hm
        rcases List.mem_cons.1 hm with e | hm
        · exact hab e
        · exact hab (strLe_antisymm (h1.1 b (by simp)) (h2.1 a hm))

theorem sliceContains_iff {s vs : List Str} : sliceContains s vs = true ↔ ∀ v ∈ vs, v ∈ s := by
  simp [sliceContains]

theorem mem_statePaths_iff {s : DMap} {p : Str} : p ∈ statePaths s ↔ ∃ d ps, (d, ps) ∈ s ∧ p ∈ ps := by
  unfold statePaths
  rw [List.mem_flatMap]
  exact ⟨fun ⟨e, h1, h2⟩ => ⟨e.1, e.2, h1, h2⟩, fun ⟨d, ps, h1, h2⟩ => ⟨(d, ps), h1, h2⟩⟩

/-- **C42, exactly what is compared**: the number of digests and the set of logical paths. -/
theorem C42_equal_iff (v w : Version) :
    equalState v w = true ↔ v.state.length = w.state.length ∧
      ∀ p, (∃ d ps, (d, ps) ∈ v.state ∧ p ∈ ps) ↔ (∃ d ps, (d, ps) ∈ w.state ∧ p ∈ ps) := by
  unfold equalState
  simp only [Bool.and_eq_true, decide_eq_true_eq, sliceContains_iff, mem_slicesCompact, mem_sortStr, and_assoc]
  apply and_congr_right
  intro _
  have n1 := slicesCompact_nodup (sortStr_sorted (statePaths v.state))
  have n2 := slicesCompact_nodup (sortStr_sorted (statePaths w.state))
  simp only [← mem_statePaths_iff]
  have m1 : ∀ x, x ∈ slicesCompact (sortStr (statePaths v.state)) ↔ x ∈ statePaths v.state := by
    intro x; rw [mem_slicesCompact, mem_sortStr]
  have m2 : ∀ x, x ∈ slicesCompact (sortStr (statePaths w.state)) ↔ x ∈ statePaths w.state := by
    intro x; rw [mem_slicesCompact, mem_sortStr]
  constructor
  · rintro ⟨hl, hs⟩
    have hsub : (slicesCompact (sortStr (statePaths w.state))).Subperm
        (slicesCompact (sortStr (statePaths v.state))) :=
      List.subperm_of_subset n2 (fun x hx => (m1 x).2 (hs x ((m2 x).1 hx)))
    have hp := hsub.perm_of_length_le (by omega)
    intro p
    rw [← m1, ← m2]; exact hp.symm.mem_iff
  · intro h
    have hp : (slicesCompact (sortStr (statePaths v.state))).Perm (slicesCompact (sortStr (statePaths w.state))) :=
      (List.perm_ext_iff_of_nodup n1 n2).2 (fun x => by rw [m1, m2]; exact h x)
    exact ⟨hp.length_eq, fun p hp => (h p).2 hp⟩

/-- **C42, the part that holds**: states judged equal have the same logical paths, and states with the same
number of digests that map the same paths to the same digests are judged equal, in any map order. -/
theorem C42_equal_partial (v w : Version) :
    (equalState v w = true → ∀ p, (∃ d ps, (d, ps) ∈ v.state ∧ p ∈ ps) ↔ (∃ d ps, (d, ps) ∈ w.state ∧ p ∈ ps)) ∧
    (v.state.length = w.state.length → SameMapping v.state w.state → equalState v w = true) := by
  constructor
  · intro h; exact ((C42_equal_iff v w).1 h).2
  · intro hl h
    refine (C42_equal_iff v w).2 ⟨hl, fun p => ?_⟩
    exact exists_congr (fun d => h p d)

/-- **C42 fails in general**: whatever the state, replacing its digests by any others goes unnoticed. -/
theorem C42_full_fails_digests (v : Version) (f : Str → Str) :
    equalState v { v with state := v.state.map (fun e => (f e.1, e.2)) } = true := by
  rw [C42_equal_iff]
  refine ⟨by simp, fun p => ?_⟩
  constructor
  · rintro ⟨d, ps, h1, h2⟩
    exact ⟨f d, ps, List.mem_map.2 ⟨_, h1, rfl⟩, h2⟩
  · rintro ⟨d, ps, h1, h2⟩
    obtain ⟨e, he, heq⟩ := List.mem_map.1 h1
    cases heq
    exact ⟨e.1, e.2, he, h2⟩

theorem C42_full_fails : ¬ C42_full := by
  intro hf
  have h := (hf (exVer ["a".toList]) _ (by decide) (by decide)).1
    (C42_full_fails_digests (exVer ["a".toList]) (fun _ => "d9".toList))
  obtain ⟨ps, h1, h2⟩ := (h "a".toList "d1".toList).1 ⟨["a".toList], List.mem_singleton.2 rfl, by simp⟩
  have h1 := List.mem_singleton.1 h1
  have h2 : "d1".toList = "d9".toList := congrArg Prod.fst h1
  exact absurd h2 (by decide)

example : equalState (exVer ["a".toList, "b".toList])
    { exVer [] with state := [("d1".toList, ["b".toList, "a".toList])] } = true := by
  refine (C42_equal_partial _ _).2 rfl ?_
  intro p d
  constructor
  · rintro ⟨ps, h1, h2⟩
    have h1 := List.mem_singleton.1 h1; cases h1
    exact ⟨_, List.mem_singleton.2 rfl, by simp only [List.mem_cons] at h2 ⊢; tauto⟩
  · rintro ⟨ps, h1, h2⟩
    have h1 := List.mem_singleton.1 h1; cases h1
    exact ⟨_, List.mem_singleton.2 rfl, by simp only [List.mem_cons] at h2 ⊢; tauto⟩

/-! ## C43 -/

/-- Every entry of the first digest map is in the second one, with the same paths in any order. -/
def SubManifest (m m2 : DMap) : Prop := ∀ d ps, (d, ps) ∈ m → ∃ ps2, (d, ps2) ∈ m2 ∧ ps.Perm ps2

/-- Same versions, with the same metadata and the same mapping of paths to digests. -/
def SameVersions (vs vs2 : AMap Str Version) : Prop :=
  (∀ k, k ∈ mkeys vs ↔ k ∈ mkeys vs2) ∧
  ∀ k v w, (k, v) ∈ vs → (k, w) ∈ vs2 →
    v.created = w.created ∧ v.message = w.message ∧ v.userName = w.userName ∧ v.userAddress = w.userAddress ∧
    SameMapping v.state w.state

/-- The two inventories agree. -/
def Agree (i i2 : Inv) : Prop :=
  i.spec = i2.spec ∧ i.head = i2.head ∧ i.contentDirectory = i2.contentDirectory ∧
  SubManifest i.manifest i2.manifest ∧ SubManifest i2.manifest i.manifest ∧ SameVersions i.versions i2.versions

/-- Inventories as decoded: maps, no content path twice. -/
def WfInv (i : Inv) : Prop :=
  (mkeys i.manifest).Nodup ∧ (mkeys i.versions).Nodup ∧ (∀ d ps, (d, ps) ∈ i.manifest → ps.Nodup) ∧
  ∀ v ver, (v, ver) ∈ i.versions → (mkeys ver.state).Nodup

/-- The full statement: what is judged equal agrees. -/
def C43_full : Prop := ∀ i i2, WfInv i → WfInv i2 → invEqual i i2 = true → Agree i i2

/-- **C43, the part that holds**: inventories judged equal have the same type, head, content directory and
version names, every manifest entry of the first is in the second with the same content paths, and each
version has the same metadata, the same logical paths and the same number of digests.  Missing: additional
manifest entries in the second inventory, and the digests of the versions (C42). -/
theorem C43_equal_partial {i i2 : Inv} (hw : WfInv i) (hw2 : WfInv i2) (h : invEqual i i2 = true) :
    i.spec = i2.spec ∧ i.head = i2.head ∧ i.contentDirectory = i2.contentDirectory ∧
    SubManifest i.manifest i2.manifest ∧ (∀ k, k ∈ mkeys i.versions ↔ k ∈ mkeys i2.versions) ∧
    ∀ k v w, (k, v) ∈ i.versions → (k, w) ∈ i2.versions →
      v.created = w.created ∧ v.message = w.message ∧ v.userName = w.userName ∧ v.userAddress = w.userAddress ∧
      v.state.length = w.state.length ∧
      ∀ p, (∃ d ps, (d, ps) ∈ v.state ∧ p ∈ ps) ↔ (∃ d ps, (d, ps) ∈ w.state ∧ p ∈ ps) := by
  simp only [invEqual, Bool.and_eq_true, decide_eq_true_eq, equalManifest, equalVersions, List.all_eq_true] at h
  obtain ⟨⟨⟨⟨⟨_, h1⟩, h2⟩, h3⟩, h4⟩, h5, h6⟩ := h
  have hver : ∀ k v, (k, v) ∈ i.versions → ∃ w, mget i2.versions k = some w ∧ equalMeta v w = true ∧
      equalState v w = true := by
    intro k v hv
    have := h6 _ hv
    cases hg : mget i2.versions k with
    | none => simp [hg] at this
    | some w => simp [hg] at this; exact ⟨w, rfl, this⟩
  refine ⟨h1, h2, h3, ?_, ?_, ?_⟩
  · intro d ps hd
    have := h4 _ hd
    cases hg : mget i2.manifest d with
    | none => simp [hg] at this
    | some ps2 =>
      simp only [hg, Bool.and_eq_true, decide_eq_true_eq, sliceContains_iff] at this
      refine ⟨ps2, mem_of_mget hg, ?_⟩
      exact ((List.subperm_of_subset (hw2.2.2.1 d ps2 (mem_of_mget hg)) this.1).perm_of_length_le
        (by omega)).symm
  · have hsub : (mkeys i.versions).Subperm (mkeys i2.versions) := by
      refine List.subperm_of_subset hw.2.1 ?_
      intro k hk
      obtain ⟨⟨k', v⟩, he, rfl⟩ := List.mem_map.1 hk
      obtain ⟨w, hg, _⟩ := hver k' v he
      exact mem_mkeys_of_mem (mem_of_mget hg)
    have hp := hsub.perm_of_length_le (by simp [mkeys, h5])
    exact fun k => hp.mem_iff
  · intro k v w hv hw'
    obtain ⟨w', hg, hm, hs⟩ := hver k v hv
    rw [mget_of_mem hw2.2.1 hw'] at hg
    cases hg
    simp only [equalMeta, Bool.and_eq_true, decide_eq_true_eq, and_assoc] at hm
    obtain ⟨a, b, c, d⟩ := hm
    obtain ⟨e, f⟩ := (C42_equal_iff v w).1 hs
    exact ⟨a, b, c, d, e, f⟩

/-- **C43, agreeing inventories are judged equal**, in any map order, if they also have the same fixity
algorithms and the versions the same number of digests. -/
theorem C43_agree_equal {i i2 : Inv} (hw : WfInv i) (hw2 : WfInv i2) (h : Agree i i2)
    (hf : i.fixityAlgs.Perm i2.fixityAlgs)
    (hl : ∀ k v w, (k, v) ∈ i.versions → (k, w) ∈ i2.versions → v.state.length = w.state.length) :
    invEqual i i2 = true := by
  obtain ⟨h1, h2, h3, h4, h5, h6, h7⟩ := h
  simp only [invEqual, Bool.and_eq_true, decide_eq_true_eq, equalManifest, equalVersions, List.all_eq_true]
  refine ⟨⟨⟨⟨⟨⟨sliceContains_iff.2 (fun v hv => hf.mem_iff.2 hv), hf.length_eq⟩, h1⟩, h2⟩, h3⟩, ?_⟩, ?_, ?_⟩
  · intro e he
    obtain ⟨ps2, hps, hp⟩ := h4 e.1 e.2 he
    simp only [mget_of_mem hw2.1 hps, Bool.and_eq_true, decide_eq_true_eq]
    exact ⟨sliceContains_iff.2 (fun v hv => hp.mem_iff.2 hv), hp.length_eq⟩
  · have := ((List.perm_ext_iff_of_nodup hw.2.1 hw2.2.1).2 h6).length_eq
    simpa [mkeys] using this
  · intro e he
    have hk : e.1 ∈ mkeys i2.versions := (h6 e.1).1 (mem_mkeys_of_mem (v := e.2) he)
    obtain ⟨w, hg⟩ := Option.isSome_iff_exists.1 (mget_isSome_iff.2 hk)
    obtain ⟨a, b, c, d, f⟩ := h7 e.1 e.2 w he (mem_of_mget hg)
    simp only [hg, Bool.and_eq_true, equalMeta, decide_eq_true_eq]
    exact ⟨⟨⟨⟨a, b⟩, c⟩, d⟩, (C42_equal_partial e.2 w).2 (hl e.1 e.2 w he (mem_of_mget hg)) f⟩

/-- **C43 fails in general**: content added to the manifest of the second inventory is never noticed. -/
theorem C43_full_fails_extra {i i2 : Inv} (h : invEqual i i2 = true) (extra : DMap) :
    invEqual i { i2 with manifest := i2.manifest ++ extra } = true := by
  have happ : ∀ (m e : DMap) (k : Str) (v : List Str), mget m k = some v → mget (m ++ e) k = some v := by
    intro m e k v
    induction m with
    | nil => simp
    | cons x m ih =>
      rw [List.cons_append, mget_cons, mget_cons]
      split
      · exact id
      · exact ih
  simp only [invEqual, Bool.and_eq_true, equalManifest, List.all_eq_true] at h ⊢
  refine ⟨⟨h.1.1, ?_⟩, h.2⟩
  intro e he
  have := h.1.2 e he
  cases hg : mget i2.manifest e.1 with
  | none => simp [hg] at this
  | some v =>
    rw [hg] at this
    rw [happ _ extra _ _ hg]; exact this

theorem exInv_wf : WfInv exInv := by
  refine ⟨by decide, by decide, ?_, ?_⟩
  · intro d ps h
    have : ∀ e ∈ exInv.manifest, e.2.Nodup := by decide
    exact this _ h
  · intro v ver h
    have : ∀ e ∈ exInv.versions, (mkeys e.2.state).Nodup := by decide
    exact this _ h

theorem C43_full_fails : ¬ C43_full := by
  intro hf
  have h := C43_full_fails_extra (i := exInv) (i2 := exInv) (by decide) [("d9".toList, ["v2/content/x".toList])]
  have ha := hf _ _ exInv_wf (by
    refine ⟨by decide, by decide, ?_, exInv_wf.2.2.2⟩
    intro d ps h
    have : ∀ e ∈ exInv.manifest ++ [("d9".toList, ["v2/content/x".toList])], e.2.Nodup := by decide
    exact this _ h) h
  obtain ⟨ps2, h1, _⟩ := ha.2.2.2.2.1 "d9".toList ["v2/content/x".toList] (by simp)
  exact absurd (mem_mkeys_of_mem h1) (by decide)

example : invEqual exInv { exInv with manifest := exInv.manifest.reverse, versions := exInv.versions.reverse } = true := by
  refine C43_agree_equal exInv_wf ?_ ?_ (List.Perm.refl _) ?_
  · refine ⟨by decide, by decide, ?_, ?_⟩
    · intro d ps h; exact exInv_wf.2.2.1 d ps (List.mem_reverse.1 h)
    · intro d ps h; exact exInv_wf.2.2.2 d ps (List.mem_reverse.1 h)
  · refine ⟨rfl, rfl, rfl, ?_, ?_, ?_, ?_⟩
    · intro d ps h; exact ⟨ps, List.mem_reverse.2 h, List.Perm.refl _⟩
    · intro d ps h; exact ⟨ps, List.mem_reverse.1 h, List.Perm.refl _⟩
    · intro k; simp [mkeys]
    · intro k v w hv hw
      have := mget_of_mem exInv_wf.2.1 hv
      rw [mget_of_mem exInv_wf.2.1 (List.mem_reverse.1 hw)] at this
      cases this
      exact ⟨rfl, rfl, rfl, rfl, fun p d => Iff.rfl⟩
  · intro k v w hv hw
    have := mget_of_mem exInv_wf.2.1 hv
    rw [mget_of_mem exInv_wf.2.1 (List.mem_reverse.1 hw)] at this
    cases this; rfl

/-- a case of `C41_algorithms_present` -/
example : exInv.digestAlg ∈ mkeys exFiles := by
  have hs : (checkFiles exInv exFiles).isOk = true := by decide
  cases h : checkFiles exInv exFiles with
  | error e => rw [h] at hs; cases hs
  | ok fs => exact (C41_algorithms_present (by decide) h).1

end Gocfl
