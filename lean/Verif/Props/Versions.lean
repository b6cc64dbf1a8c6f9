import Verif.Model.StateLemmas

/-!
# Properties of version numbering and version immutability (C01–C05, C12, C20)
-/

namespace Gocfl

/-! ## A concrete object used as non-trivial instance -/

/-- A two-version object: v1 has `a`, v2 has `a` and `b`. -/
def exInv : Inv where
  id := "id".toList
  spec := "https://ocfl.io/1.1/spec/#inventory".toList
  digestAlg := "sha512".toList
  head := "v2".toList
  contentDirectory := []
  manifest := [("d1".toList, ["v1/content/a".toList]), ("d2".toList, ["v2/content/b".toList])]
  versions :=
    [("v2".toList, ⟨"t2".toList, "m2".toList, "u".toList, "x".toList,
        [("d2".toList, ["b".toList]), ("d1".toList, ["a".toList])]⟩),
     ("v1".toList, ⟨"t1".toList, "m1".toList, "u".toList, "x".toList, [("d1".toList, ["a".toList])]⟩)]
  fixity := []
  fixityAlgs := []
  paddingLength := 0
  modified := false
  writeable := false

theorem exInv_gapFree : GapFree exInv 2 := by
  refine ⟨?_, by decide⟩
  have h1 : mkeys exInv.versions = ["v2".toList, "v1".toList] := by decide
  have h2 : (List.range 2).map (fun k => verName exInv.paddingLength ((k + 1 : Nat) : Int)) =
      ["v1".toList, "v2".toList] := by decide
  rw [h1, h2]; exact List.Perm.swap _ _ _

theorem exInv_mapKeysOk : MapKeysOk exInv := by
  have : ∀ e ∈ exInv.versions, (mkeys e.2.state).Nodup := by decide
  exact fun v ver h => this (v, ver) h

theorem exInv_oneDigest : OneDigestPerPath exInv := by
  have : ∀ e ∈ exInv.versions, (e.2.state.flatMap (·.2)).Nodup := by decide
  exact fun v ver h => this (v, ver) h

/-! ## C01 -/

theorem newVersion_keeps {inv inv' : Inv} {n : Nat} (hg : GapFree inv n) (hk : MapKeysOk inv)
    {m u a t : Str} (h : newVersion inv m u a t = .ok inv') {v : Str} (hv : v ∈ mkeys inv.versions) :
    v ∈ mkeys inv'.versions ∧ v ≠ inv'.head ∧ mget inv'.versions v = mget inv.versions v := by
  obtain ⟨s, _, _, he⟩ := newVersion_gapFree hg hk m u a t
  rw [he] at h; cases h
  refine ⟨by simp [mkeys] at hv ⊢; exact Or.inl hv, ?_, ?_⟩
  · rintro rfl; exact hg.next_not_mem hv
  · show mget (inv.versions ++ [_]) v = _
    rw [← mset_fresh hg.next_not_mem, mget_mset_ne]
    rintro rfl; exact hg.next_not_mem hv

/-- No history changes any version other than the head. -/
theorem C01_non_head_versions_immutable {inv inv' : Inv} {n : Nat} (hg : GapFree inv n)
    (hk : MapKeysOk inv) {ops : List Op} (h : run inv ops = .ok inv') {v : Str}
    (hv : v ∈ mkeys inv.versions) (hne : v ≠ inv.head) :
    mget inv'.versions v = mget inv.versions v := by
  induction ops generalizing inv n with
  | nil => cases h; rfl
  | cons op ops ih =>
    simp only [run] at h
    obtain ⟨i, hi, hr⟩ := res_bind_eq_ok.1 h
    have hwf := step_wf ⟨hg, hk⟩ hi
    by_cases hop : ∃ m u a t, op = .newVersion m u a t
    · obtain ⟨m, u, a, t, rfl⟩ := hop
      obtain ⟨h1, h2, h3⟩ := newVersion_keeps hg hk hi hv
      rw [ih hwf.1 hwf.2 hr h1 h2, h3]
    · have ho := step_headOnly (fun m u a t e => hop ⟨m, u, a, t, e⟩) hi
      rw [ih hwf.1 hwf.2 hr (by rw [ho.keys]; exact hv) (by rw [ho.head]; exact hne), ho.other v hne]

/-- **C01.** Once a new version has been opened, no sequence of operations changes anything recorded
for any of the earlier versions (all of those recorded before, including the former head). -/
theorem C01_sealed_versions_immutable {inv inv' : Inv} {n : Nat} (hg : GapFree inv n)
    (hk : MapKeysOk inv) {m u a t : Str} {ops : List Op}
    (h : run inv (.newVersion m u a t :: ops) = .ok inv') {v : Str} (hv : v ∈ mkeys inv.versions) :
    mget inv'.versions v = mget inv.versions v := by
  simp only [run] at h
  obtain ⟨i, hi, h⟩ := res_bind_eq_ok.1 h
  have hi : newVersion inv m u a t = .ok i := hi
  obtain ⟨h1, h2, h3⟩ := newVersion_keeps hg hk hi hv
  have hwf := newVersion_ok_gapFree hg hk hi
  rw [C01_non_head_versions_immutable hwf.1 hwf.2 h h1 h2, h3]

/-- A history with every kind of operation for which C01 applies to `v1` and `v2`. -/
def exOps : List Op :=
  [.newVersion "m3".toList "u".toList "x".toList "t3".toList,
   .add ["c".toList] "v3/content/c".toList [("sha512".toList, "D3".toList), ("md5".toList, "f".toList)],
   .add ["a".toList] "v3/content/a".toList [("sha512".toList, "d4".toList)],
   .delete "b".toList, .rename "c".toList "e".toList, .copy "f".toList "d1".toList,
   .echo ["a".toList, "e".toList] [],
   .newVersion "m4".toList "u".toList "x".toList "t4".toList, .delete "a".toList]

example : (run exInv exOps).toOption.isSome = true := by decide
example : ∀ inv', run exInv exOps = .ok inv' →
    mget inv'.versions "v2".toList = mget exInv.versions "v2".toList :=
  fun _ h => C01_sealed_versions_immutable exInv_gapFree exInv_mapKeysOk h (by decide)

/-! ## C02 -/

/-- **C02.** Opening a new version succeeds, makes version `n+1` the head, and its logical content is
exactly that of the previous head (nothing for a fresh object); nothing else is recorded in it. -/
theorem C02_new_version_copies {inv : Inv} {n : Nat} (hg : GapFree inv n) (hk : MapKeysOk inv)
    (m u a t : Str) :
    ∃ inv', newVersion inv m u a t = .ok inv' ∧
      inv'.head = verName inv.paddingLength ((n + 1 : Nat) : Int) ∧
      (∀ p d, HasFile inv' inv'.head p d ↔ HasFile inv inv.head p d) ∧
      (∃ ver, mget inv'.versions inv'.head = some ver ∧ ver.message = m ∧ ver.userName = u ∧
        ver.userAddress = a ∧ ver.created = t ∧
        ∀ old, mget inv.versions inv.head = some old → ver.state = old.state) := by
  obtain ⟨s, hs0, hs1, he⟩ := newVersion_gapFree hg hk m u a t
  refine ⟨_, he, rfl, ?_, ?_⟩
  · intro p d
    have hn' := (newVersion_ok_gapFree hg hk he).1.nodup
    rw [hasFile_iff hn', hasFile_iff hg.nodup]
    simp only
    rw [← mset_fresh hg.next_not_mem, mget_mset_self]
    by_cases hn : n = 0
    · rw [hs0 hn]
      have : inv.head ∉ mkeys inv.versions := by
        intro hm; obtain ⟨k, h1, h2, _⟩ := hg.mem_keys.1 hm; omega
      rw [mget_eq_none_iff.2 this]; simp
    · obtain ⟨old, hold⟩ := hg.head_version (Nat.pos_of_ne_zero hn)
      rw [hold, hs1 old hold]; simp
  · refine ⟨{ created := t, message := m, userName := u, userAddress := a, state := s },
      ?_, rfl, rfl, rfl, rfl, hs1⟩
    show mget (inv.versions ++ [_]) _ = _
    rw [← mset_fresh hg.next_not_mem, mget_mset_self]

example : ∃ inv', newVersion exInv "m".toList "u".toList "x".toList "t".toList = .ok inv' ∧
    inv'.head = "v3".toList ∧ HasFile inv' inv'.head "b".toList "d2".toList := by
  obtain ⟨inv', h1, h2, h3, _⟩ :=
    C02_new_version_copies exInv_gapFree exInv_mapKeysOk "m".toList "u".toList "x".toList "t".toList
  refine ⟨inv', h1, h2, (h3 _ _).2 ?_⟩
  exact ⟨_, ["b".toList], List.mem_cons_self, List.mem_cons_self, by decide⟩

/-! ## C03 -/

/-- the number of versions a history opens -/
def opened : List Op → Nat
  | [] => 0
  | .newVersion .. :: ops => opened ops + 1
  | _ :: ops => opened ops

theorem opened_eq_countNew (ops : List Op) : opened ops = countNew ops := by
  induction ops with
  | nil => rfl
  | cons op ops ih =>
    rw [countNew_cons]
    cases op <;> (simp [opened, ih, countNew]; try omega)

/-- **C03.** After any history the versions are exactly `1..n` (each once) and the head is the last,
where `n` counts the versions opened. -/
theorem C03_contiguous_versions {inv inv' : Inv} {n : Nat} (hg : GapFree inv n) (hk : MapKeysOk inv)
    {ops : List Op} (h : run inv ops = .ok inv') : GapFree inv' (n + opened ops) := by
  rw [opened_eq_countNew]; exact (run_wf ⟨hg, hk⟩ h).1

/-- **C03** for objects created by the tool. -/
theorem C03_contiguous_versions_fresh (id spec alg cd : Str) (fa : List Str) {inv' : Inv}
    {ops : List Op} (h : run (newInv id spec alg cd fa) ops = .ok inv') : GapFree inv' (opened ops) := by
  have := C03_contiguous_versions (newInv_wf id spec alg cd fa).1 (newInv_wf id spec alg cd fa).2 h
  simpa using this

example : ∀ inv', run (newInv "a".toList [] "sha512".toList [] []) [.newVersion [] [] [] [], .add ["a".toList] "v1/content/a".toList [("sha512".toList, "d1".toList)],
    .newVersion [] [] [] []] = .ok inv' → GapFree inv' 2 := fun _ h => C03_contiguous_versions_fresh _ _ _ _ _ h

example : ∃ inv', run exInv exOps = .ok inv' ∧ GapFree inv' 4 := by
  have hs : (run exInv exOps).toOption.isSome = true := by decide
  cases h : run exInv exOps with
  | error e => rw [h] at hs; cases hs
  | ok inv' => exact ⟨inv', rfl, C03_contiguous_versions exInv_gapFree exInv_mapKeysOk h⟩

/-! ## C04 -/

/-- **C04.** The three ways in which the code reads a version number back from the name of version
`n ≥ 1` (opening a new version, listing versions, comparing versions) all give `n`, whatever the
padding. -/
theorem C04_version_name_round_trip (pad : Int) {n : Nat} (hn : 1 ≤ n) :
    headNumber (verName pad (n : Int)) = some (n : Int) ∧
    vNumber (verName pad (n : Int)) = some (n : Int) ∧
    atoi (trimLeft (verName pad (n : Int)) "v0".toList) = some (n : Int) := by
  refine ⟨headNumber_verName pad hn, vNumber_verName pad n, ?_⟩
  obtain ⟨k, hk⟩ := verName_shape pad n
  rw [hk]
  have h2 : trimLeft ('v' :: (List.replicate k '0' ++ fmtNat n)) "v0".toList =
      trimLeft (List.replicate k '0' ++ fmtNat n) "v0".toList := rfl
  rw [h2, trimLeft_zeros_fmtNat k hn, atoi_fmtNat]

example : headNumber "v010".toList = some 10 := (C04_version_name_round_trip 2 (n := 10) (by decide)).1

/-- **C04.** Distinct version numbers have distinct names, even across paddings. -/
theorem C04_version_names_distinct (pad pad' : Int) {a b : Nat} (hab : a ≠ b) :
    verName pad (a : Int) ≠ verName pad' (b : Int) := fun h => hab (verName_inj h)

example : verName 2 (10 : Int) = "v010".toList ∧ headNumber "v010".toList = some 10 := by decide

/-! ## C05 -/

/-- **C05, full statement** (false): all versions of a zero-padded object have names of equal length. -/
def C05_full : Prop :=
  ∀ (pad : Int) (n : Nat), 0 < pad → 1 ≤ n →
    (verName pad (n : Int)).length = (verName pad 1).length

theorem verName_padded_length {pad : Int} (hpad : 0 < pad) (n : Nat) :
    (verName pad (n : Int)).length = 2 + max pad.toNat (fmtNat n).length := by
  unfold verName
  rw [if_neg (by omega)]
  show ('v' :: '0' :: (List.replicate (pad.toNat - (fmtNat n).length) '0' ++ fmtNat n)).length = _
  simp only [List.length_cons, List.length_append, List.length_replicate]
  omega

/-- **C05, exact extent.** The name of version `n` keeps the width of the first one if and only if
`n < 10^pad`. -/
theorem C05_padding_kept_iff {pad : Int} (hpad : 0 < pad) (n : Nat) :
    (verName pad (n : Int)).length = (verName pad 1).length ↔ n < 10 ^ pad.toNat := by
  have h1 : (verName pad 1).length = 2 + pad.toNat := by
    have := verName_padded_length hpad 1
    have hl : (fmtNat 1).length = 1 := by decide
    rw [hl] at this
    have he : verName pad ((1 : Nat) : Int) = verName pad 1 := rfl
    rw [← he, this]; omega
  rw [h1, verName_padded_length hpad n]
  have hp : 0 < pad.toNat := by omega
  have := Nat.length_toDigits_le_iff (b := 10) (n := n) (k := pad.toNat) (by omega) hp
  unfold fmtNat
  omega

/-- **C05** holds as long as the numbers fit. -/
theorem C05_padding_kept_partial {pad : Int} (hpad : 0 < pad) {n : Nat}
    (hfit : n < 10 ^ pad.toNat) : (verName pad (n : Int)).length = (verName pad 1).length :=
  (C05_padding_kept_iff hpad n).2 hfit

example : (verName 2 (99 : Int)).length = (verName 2 1).length := C05_padding_kept_partial (n := 99) (by decide) (by decide)

/-- **C05 fails**: every zero-padded object gets a name of different length at version `10^pad`
(for example `v09` is followed by `v010`), instead of the operation being refused. -/
theorem C05_full_fails_at {pad : Int} (hpad : 0 < pad) :
    (verName pad ((10 ^ pad.toNat : Nat) : Int)).length ≠ (verName pad 1).length := by
  have h := C05_padding_kept_iff hpad (10 ^ pad.toNat)
  intro he
  exact absurd (h.1 he) (by omega)

theorem C05_full_fails : ¬ C05_full := fun h =>
  C05_full_fails_at (pad := 1) (by omega) (h 1 (10 ^ 1) (by omega) (by omega))

example : verName 1 (9 : Int) = "v09".toList ∧ verName 1 (10 : Int) = "v010".toList := by decide

/-! ## C12 -/

/-- every content path recorded for a digest stays recorded for it, in the same order -/
def ManifestGrows (a b : DMap) : Prop :=
  ∀ d ms, mget a d = some ms → ∃ ext, mget b d = some (ms ++ ext)

theorem ManifestGrows.refl (a : DMap) : ManifestGrows a a := fun _ ms h => ⟨[], by simp [h]⟩

theorem ManifestGrows.trans {a b c : DMap} (h : ManifestGrows a b) (h' : ManifestGrows b c) :
    ManifestGrows a c := by
  intro d ms hm
  obtain ⟨e, he⟩ := h d ms hm
  obtain ⟨e', he'⟩ := h' d _ he
  exact ⟨e ++ e', by rw [he', List.append_assoc]⟩

theorem manAdd_grows (m : DMap) (mp d : Str) : ManifestGrows m (manAdd m mp d) := by
  unfold manAdd
  split
  · intro e ms hm
    by_cases h : d = e
    · subst h; exact ⟨[mp], by simp [mgetD, hm]⟩
    · exact ⟨[], by rw [mget_mset_ne _ h]; simp [hm]⟩
  · exact ManifestGrows.refl _

theorem addFile_manifest {inv inv' : Inv} {ns : List Str} {mp : Str} {cs : AMap Str Str}
    (h : addFile inv ns mp cs = .ok inv') :
    ∃ dig, mget cs inv.digestAlg = some dig ∧
      inv'.manifest = ns.foldl (fun m _ => manAdd m mp (toLower dig)) inv.manifest := by
  obtain ⟨dig, hd, h'⟩ := addFile_ok h
  clear h
  refine ⟨dig, hd, ?_⟩
  obtain ⟨_, _, h3, _, _⟩ := addFixity_fold inv mp cs
  rw [← h3]
  have key : ∀ (i : Inv), ns.foldlM (fun i n => addName i mp (toLower dig) n) i = .ok inv' →
      inv'.manifest = ns.foldl (fun m _ => manAdd m mp (toLower dig)) i.manifest := by
    clear h' h3 hd
    induction ns with
    | nil => intro i h; cases h; rfl
    | cons n ns ih =>
      intro i h
      rw [List.foldlM_cons] at h
      obtain ⟨j, hj, h⟩ := res_bind_eq_ok.1 h
      rw [ih j h, List.foldl_cons]
      obtain ⟨_, _, _, _, _, _, _, hm, _⟩ := addName_ok hj
      rw [hm]
  exact key _ h'

theorem deleteFile_manifest {inv inv' : Inv} {p : Str} (h : deleteFile inv p = .ok inv') :
    inv'.manifest = inv.manifest := by obtain ⟨s, _, rfl⟩ := deleteFile_ok h; simp

theorem echoDelete_manifest {inv inv' : Inv} {ex : List Str} {pre : Str}
    (h : echoDelete inv ex pre = .ok inv') : inv'.manifest = inv.manifest := by
  unfold echoDelete at h
  split at h
  · cases h
  · exact foldlM_rel (R := fun a b : Inv => b.manifest = a.manifest) (fun _ => rfl)
      (fun _ _ _ h1 h2 => Eq.trans h2 h1) (fun _ _ _ => deleteFile_manifest) _ _ _ h

theorem step_manifest {inv inv' : Inv} {op : Op} (h : step inv op = .ok inv') :
    ManifestGrows inv.manifest inv'.manifest := by
  cases op with
  | newVersion m u a t =>
    have h : newVersion inv m u a t = .ok inv' := h
    unfold newVersion at h
    obtain ⟨nh, _, h⟩ := res_bind_eq_ok.1 h
    simp only at h
    split at h
    · cases h; exact ManifestGrows.refl _
    · split at h
      · cases h
      · cases h; exact ManifestGrows.refl _
  | add ns mp cs =>
    obtain ⟨dig, _, hm⟩ := addFile_manifest h
    rw [hm]
    generalize inv.manifest = m
    clear h hm
    induction ns generalizing m with
    | nil => exact ManifestGrows.refl _
    | cons n ns ih => exact (manAdd_grows m mp _).trans (ih _)
  | delete p => rw [deleteFile_manifest h]; exact ManifestGrows.refl _
  | rename a b => obtain ⟨s, _, rfl⟩ := renameFile_ok h; rw [setHeadState_manifest]; exact ManifestGrows.refl _
  | copy d c =>
    obtain ⟨_, s, _, ⟨_, rfl⟩ | ⟨_, rfl⟩⟩ := copyFile_ok h
    · exact ManifestGrows.refl _
    · rw [setHeadState_manifest]; exact ManifestGrows.refl _
  | echo ex pre => rw [echoDelete_manifest h]; exact ManifestGrows.refl _

/-- **C12.** No history removes or changes a manifest entry: the content paths of every digest are
only appended to.  (No hypothesis on the inventory.) -/
theorem C12_manifest_only_grows {inv inv' : Inv} {ops : List Op} (h : run inv ops = .ok inv')
    {d : Str} {ms : List Str} (hd : mget inv.manifest d = some ms) :
    ∃ ext, mget inv'.manifest d = some (ms ++ ext) := by
  have : ManifestGrows inv.manifest inv'.manifest := by
    clear hd
    induction ops generalizing inv with
    | nil => cases h; exact ManifestGrows.refl _
    | cons op ops ih =>
      simp only [run] at h
      obtain ⟨i, hi, h⟩ := res_bind_eq_ok.1 h
      exact (step_manifest hi).trans (ih h)
  exact this d ms hd

example : ∀ inv', run exInv exOps = .ok inv' →
    ∃ ext, mget inv'.manifest "d1".toList = some (["v1/content/a".toList] ++ ext) :=
  fun _ h => C12_manifest_only_grows h (by decide)

/-! ## C20 -/

/-- **C20.** For every inventory with versions `1..n`, in whatever map order, the version listing is
the list of all version names in ascending numeric order. -/
theorem C20_version_listing {inv : Inv} {n : Nat} (hg : GapFree inv n) :
    getVersionStrings inv =
      (List.range n).map (fun k => verName inv.paddingLength ((k + 1 : Nat) : Int)) := by
  by_cases hn : n = 0
  · subst hn
    have : inv.versions = [] := by
      have := hg.1
      simp [mkeys] at this; exact this
    simp [getVersionStrings, this]
  · have hne : inv.versions ≠ [] := by
      intro he
      have := hg.head_mem (Nat.pos_of_ne_zero hn)
      rw [he] at this; simp at this
    have hmap : (mkeys inv.versions).mapM vNumber = some ((mkeys inv.versions).map vNum) := by
      apply mapM_eq_some
      intro v hv
      obtain ⟨j, _, _, rfl⟩ := hg.mem_keys.1 hv
      rw [vNumber_verName, vNum_verName]
    have hsort : sortInt ((mkeys inv.versions).map vNum) =
        (List.range n).map (fun k => ((k + 1 : Nat) : Int)) := by
      apply sortInt_unique
      · have := hg.1.map vNum
        rw [List.map_map] at this
        refine this.trans (List.Perm.of_eq ?_)
        apply List.map_congr_left
        intro k _
        exact vNum_verName _ _
      · rw [List.pairwise_map]
        refine List.Pairwise.imp ?_ List.pairwise_lt_range
        intro a b h; omega
    unfold getVersionStrings
    simp only [hne, if_false, hmap, hsort, List.map_map]
    apply List.map_congr_left
    intro k hk
    have hkn := List.mem_range.1 hk
    simp only [Function.comp]
    have hfil : (mkeys inv.versions).filter (fun v => decide (vNumber v = some ((k + 1 : Nat) : Int))) =
        [verName inv.paddingLength ((k + 1 : Nat) : Int)] := by
      have hmem : verName inv.paddingLength ((k + 1 : Nat) : Int) ∈ mkeys inv.versions :=
        hg.mem_keys.2 ⟨k + 1, by omega, by omega, rfl⟩
      have hp : (mkeys inv.versions).filter (fun v => decide (vNumber v = some ((k + 1 : Nat) : Int))) =
          (mkeys inv.versions).filter (fun v => decide (v = verName inv.paddingLength ((k + 1 : Nat) : Int))) := by
        apply List.filter_congr
        intro v hv
        obtain ⟨j, _, _, rfl⟩ := hg.mem_keys.1 hv
        rw [vNumber_verName]
        by_cases hj : j = k + 1
        · subst hj; simp
        · have h1 : verName inv.paddingLength (j : Int) ≠ verName inv.paddingLength ((k + 1 : Nat) : Int) :=
            fun e => hj (verName_inj e)
          have h2 : (some (j : Int) : Option Int) ≠ some ((k + 1 : Nat) : Int) := by
            intro e; have := Option.some.inj e; omega
          rw [decide_eq_false h1, decide_eq_false h2]
      rw [hp]
      have hcount := List.count_eq_one_of_mem hg.nodup hmem
      have : (mkeys inv.versions).filter (fun v => decide (v = verName inv.paddingLength ((k + 1 : Nat) : Int))) =
          List.replicate (List.count (verName inv.paddingLength ((k + 1 : Nat) : Int)) (mkeys inv.versions))
            (verName inv.paddingLength ((k + 1 : Nat) : Int)) := by
        rw [← List.filter_beq]; congr 1; funext v; simp [beq_eq_decide]
      rw [this, hcount]; rfl
    rw [hfil]; rfl

/-- **C20.** The listing does not depend on the map order. -/
theorem C20_version_listing_perm {inv inv' : Inv} {n : Nat} (hg : GapFree inv n)
    (hv : inv'.versions.Perm inv.versions) (hh : inv'.head = inv.head)
    (hp : inv'.paddingLength = inv.paddingLength) : getVersionStrings inv' = getVersionStrings inv := by
  have hg' : GapFree inv' n := ⟨by rw [hp]; exact (hv.map _).trans hg.1, by rw [hh, hp]; exact hg.2⟩
  rw [C20_version_listing hg, C20_version_listing hg', hp]

example : getVersionStrings { exInv with versions := exInv.versions.reverse } = ["v1".toList, "v2".toList] :=
  (C20_version_listing_perm (inv := exInv) (inv' := { exInv with versions := exInv.versions.reverse }) exInv_gapFree (List.reverse_perm _) rfl rfl).trans (by decide)

example : getVersionStrings exInv = ["v1".toList, "v2".toList] := by
  rw [C20_version_listing exInv_gapFree]; decide

end Gocfl
