import Verif.Props.Versions

/-!
# Properties of the logical content of an object (C06–C11, C14–C17, C19)
-/

namespace Gocfl

/-- The last version (of `1..n`) that has path `p` at all has it with digest `d`. -/
def LastHas (inv : Inv) (n : Nat) (p d : Str) : Prop :=
  ∃ k, 1 ≤ k ∧ k ≤ n ∧ HasFile inv (verName inv.paddingLength (k : Nat)) p d ∧
    ∀ j, k < j → j ≤ n → ¬ HasPath inv (verName inv.paddingLength (j : Nat)) p

theorem digestAt_some_iff {inv : Inv} (hn : (mkeys inv.versions).Nodup) (ho : OneDigestPerPath inv)
    {k : Nat} {p d : Str} :
    digestAt inv k p = some d ↔ HasFile inv (verName inv.paddingLength (k : Int)) p d := by
  unfold digestAt
  rw [hasFile_iff hn]
  cases h : mget inv.versions (verName inv.paddingLength (k : Int)) with
  | none => simp
  | some ver =>
    have := ho _ _ (mem_of_mget h)
    simp only [Option.bind_some, Option.some.injEq, exists_eq_left']
    exact digestOf_eq_some_iff this

theorem digestAt_none_iff {inv : Inv} (hn : (mkeys inv.versions).Nodup) {k : Nat} {p : Str} :
    digestAt inv k p = none ↔ ¬ HasPath inv (verName inv.paddingLength (k : Int)) p := by
  unfold digestAt HasPath
  simp only [hasFile_iff hn]
  cases h : mget inv.versions (verName inv.paddingLength (k : Int)) with
  | none => simp
  | some ver => simp [digestOf_none]

theorem LastHas.unique {inv : Inv} {n : Nat} (hn : (mkeys inv.versions).Nodup)
    (ho : OneDigestPerPath inv) {p d d' : Str} (h : LastHas inv n p d) (h' : LastHas inv n p d') :
    d = d' := by
  obtain ⟨k, h1, h2, h3, h4⟩ := h
  obtain ⟨k', h1', h2', h3', h4'⟩ := h'
  have hk : k = k' := by
    rcases Nat.lt_trichotomy k k' with hlt | heq | hgt
    · exact absurd ⟨d', h3'⟩ (h4 k' hlt h2')
    · exact heq
    · exact absurd ⟨d, h3⟩ (h4' k hgt h2)
  subst hk
  have e1 := (digestAt_some_iff hn ho).2 h3
  have e2 := (digestAt_some_iff hn ho).2 h3'
  rw [e1] at e2; exact Option.some.inj e2

/-- What `lastDigest` returns, in the vocabulary of the specification. -/
theorem lastDigest_spec {inv : Inv} {n : Nat} (hg : GapFree inv n) (ho : OneDigestPerPath inv)
    {p : Str} {r : Option Str} (h : lastDigest inv p = .ok r) :
    ∀ d, r = some d ↔ LastHas inv n p d := by
  have key : ∀ k d, 1 ≤ k → k ≤ n → digestAt inv k p = some d →
      (∀ j, k < j → j ≤ n → digestAt inv j p = none) → LastHas inv n p d := by
    intro k d h1 h2 h3 h4
    exact ⟨k, h1, h2, (digestAt_some_iff hg.nodup ho).1 h3,
      fun j hj hj' => (digestAt_none_iff hg.nodup).1 (h4 j hj hj')⟩
  intro d
  rcases lastDigest_ok hg h with ⟨rfl, hno⟩ | ⟨k, x, rfl, h1, h2, h3, h4⟩
  · constructor
    · intro h; cases h
    · rintro ⟨k, h1, h2, h3, _⟩
      exact absurd ⟨d, h3⟩ ((digestAt_none_iff hg.nodup).1 (hno k h1 h2))
  · have hx := key k x h1 h2 h3 h4
    constructor
    · intro h; cases h; exact hx
    · intro h; rw [hx.unique hg.nodup ho h]

theorem lastDigest_unpadded_ok {inv : Inv} {n : Nat} (hg : GapFree inv n)
    (hpad : inv.paddingLength ≤ 0) (p : Str) : ∃ r, lastDigest inv p = .ok r := by
  rcases last_or_none inv n p with hno | ⟨k, d, h1, h2, hd, hl⟩
  · exact ⟨none, lastDigest_none hg hno⟩
  · exact ⟨some d, lastDigest_some hg hpad h1 h2 hd hl⟩

theorem lastHas_head {inv : Inv} {n : Nat} (hg : GapFree inv n) (hn : 0 < n)
    (ho : OneDigestPerPath inv) {p d : Str} (hp : HasPath inv inv.head p) :
    LastHas inv n p d ↔ HasFile inv inv.head p d := by
  have hh := hg.head_eq hn
  constructor
  · rintro ⟨k, h1, h2, h3, h4⟩
    rcases Nat.lt_or_eq_of_le h2 with hlt | rfl
    · exact absurd (hh ▸ hp) (h4 n hlt (le_refl _))
    · rw [hh]; exact h3
  · intro h
    exact ⟨n, hn, le_refl _, hh ▸ h, fun j h1 h2 => by omega⟩

/-! ## C06 -/

/-- **C06, full statement** (false): the answer is yes exactly if the head maps the path to the
digest, and the question never fails. -/
def C06_full : Prop :=
  ∀ (inv : Inv) (n : Nat) (p d : Str), GapFree inv n → MapKeysOk inv → OneDigestPerPath inv → 0 < n →
    d ≠ [] → ∃ b, alreadyExists inv p d = .ok b ∧ (b = true ↔ HasFile inv inv.head p d)

/-- **C06, what the code computes** on unpadded objects: yes exactly if the *last version that has the
path* has it with that digest (which may be an old version, the path being deleted since). -/
theorem C06_already_exists_exact {inv : Inv} {n : Nat} (hg : GapFree inv n)
    (ho : OneDigestPerPath inv) (hpad : inv.paddingLength ≤ 0) {p d : Str} (hd : d ≠ []) :
    ∃ b, alreadyExists inv p d = .ok b ∧ (b = true ↔ LastHas inv n p d) := by
  obtain ⟨r, hr⟩ := lastDigest_unpadded_ok hg hpad p
  refine ⟨_, (alreadyExists_ok hd).2 ⟨r, hr, rfl⟩, ?_⟩
  rw [decide_eq_true_iff]
  exact lastDigest_spec hg ho hr d

/-- **C06** for unpadded objects and paths which are in the head or were never recorded. -/
theorem C06_already_exists_partial {inv : Inv} {n : Nat} (hg : GapFree inv n) (hn : 0 < n)
    (ho : OneDigestPerPath inv) (hpad : inv.paddingLength ≤ 0) {p d : Str} (hd : d ≠ [])
    (hp : HasPath inv inv.head p ∨ ∀ v, ¬ HasPath inv v p) :
    ∃ b, alreadyExists inv p d = .ok b ∧ (b = true ↔ HasFile inv inv.head p d) := by
  obtain ⟨b, h1, h2⟩ := C06_already_exists_exact hg ho hpad (p := p) hd
  refine ⟨b, h1, h2.trans ?_⟩
  rcases hp with hp | hp
  · exact lastHas_head hg hn ho hp
  · constructor
    · rintro ⟨k, _, _, h3, _⟩; exact absurd ⟨d, h3⟩ (hp _)
    · intro h; exact absurd ⟨d, h⟩ (hp _)

example : ∃ b, alreadyExists exInv "a".toList "d1".toList = .ok b ∧
    (b = true ↔ HasFile exInv exInv.head "a".toList "d1".toList) :=
  C06_already_exists_partial exInv_gapFree (by decide) exInv_oneDigest (by decide) (by decide)
    (Or.inl ⟨"d1".toList, _, ["a".toList], List.mem_cons_self, by decide, by decide⟩)

/-- **C06 fails** for every deleted path of an unpadded object: the code answers yes although the head
does not have the path. -/
theorem C06_full_fails_deleted {inv : Inv} {n : Nat} (hg : GapFree inv n) (ho : OneDigestPerPath inv)
    (hpad : inv.paddingLength ≤ 0) {p d : Str} (hd : d ≠ []) (hdel : ¬ HasPath inv inv.head p)
    (hlast : LastHas inv n p d) :
    alreadyExists inv p d = .ok true ∧ ¬ HasFile inv inv.head p d := by
  obtain ⟨b, h1, h2⟩ := C06_already_exists_exact hg ho hpad (p := p) hd
  rw [h2.2 hlast] at h1
  exact ⟨h1, fun h => hdel ⟨d, h⟩⟩

/-- **C06 fails** for every recorded path of a zero-padded object: the question returns an error. -/
theorem C06_full_fails_padded {inv : Inv} {n : Nat} (hg : GapFree inv n)
    (hpad : 0 < inv.paddingLength) {p d v : Str} (hd : d ≠ []) (hp : HasPath inv v p) :
    ∃ e, alreadyExists inv p d = .error e := by
  obtain ⟨x, ver, ps, hv, hx, hpp⟩ := hp
  obtain ⟨k, h1, h2, rfl⟩ := hg.mem_keys.1 (mem_mkeys_of_mem hv)
  have hsome : ∃ y, digestAt inv k p = some y := by
    cases hda : digestAt inv k p with
    | some y => exact ⟨y, rfl⟩
    | none =>
      rw [digestAt_none_iff hg.nodup] at hda
      exact absurd ⟨x, ver, ps, hv, hx, hpp⟩ hda
  obtain ⟨y, hy⟩ := hsome
  refine ⟨.error "could not get checksum", ?_⟩
  unfold alreadyExists
  simp only [hd, if_false]
  rw [lastDigest_padded hg hpad h1 h2 hy]; rfl

/-- `exInv` in a third version from which `b` has been deleted. -/
def exDel : Inv :=
  { exInv with
    head := "v3".toList
    versions := ("v3".toList, ⟨"t3".toList, "m3".toList, "u".toList, "x".toList,
        [("d2".toList, []), ("d1".toList, ["a".toList])]⟩) :: exInv.versions }

theorem exDel_gapFree : GapFree exDel 3 := by
  refine ⟨?_, by decide⟩
  have h1 : mkeys exDel.versions = ["v3".toList, "v2".toList, "v1".toList] := by decide
  have h2 : (List.range 3).map (fun k => verName exDel.paddingLength ((k + 1 : Nat) : Int)) =
      ["v1".toList, "v2".toList, "v3".toList] := by decide
  rw [h1, h2]; exact (List.reverse_perm ["v1".toList, "v2".toList, "v3".toList])

theorem exDel_mapKeysOk : MapKeysOk exDel := by
  have : ∀ e ∈ exDel.versions, (mkeys e.2.state).Nodup := by decide
  exact fun v ver h => this (v, ver) h

theorem exDel_oneDigest : OneDigestPerPath exDel := by
  have : ∀ e ∈ exDel.versions, (e.2.state.flatMap (·.2)).Nodup := by decide
  exact fun v ver h => this (v, ver) h

theorem hasFile_head_decide {inv : Inv} {s : DMap} (hn : (mkeys inv.versions).Nodup)
    (hs : headState inv = .ok s) (p d : Str) :
    HasFile inv inv.head p d ↔ ∃ e ∈ s, e.1 = d ∧ p ∈ e.2 := by
  rw [hasFile_head hn hs]
  constructor
  · rintro ⟨ps, h1, h2⟩; exact ⟨_, h1, rfl, h2⟩
  · rintro ⟨⟨e1, e2⟩, h1, rfl, h2⟩; exact ⟨e2, h1, h2⟩

theorem C06_full_fails : ¬ C06_full := by
  intro h
  obtain ⟨b, h1, h2⟩ := h exDel 3 "b".toList "d2".toList exDel_gapFree exDel_mapKeysOk exDel_oneDigest
    (by decide) (by decide)
  have : alreadyExists exDel "b".toList "d2".toList = .ok true := by decide
  rw [this] at h1; cases h1
  have hs : headState exDel = .ok [("d2".toList, []), ("d1".toList, ["a".toList])] := by decide
  have := (hasFile_head_decide exDel_gapFree.nodup hs _ _).1 (h2.1 rfl)
  revert this; decide

/-! ## C07 -/

/-- **C07, full statement** (false): the answer is yes exactly if the head maps the path to another
digest, and the question never fails. -/
def C07_full : Prop :=
  ∀ (inv : Inv) (n : Nat) (p d : Str), GapFree inv n → MapKeysOk inv → OneDigestPerPath inv → 0 < n →
    d ≠ [] → ∃ b, isUpdate inv p d = .ok b ∧
      (b = true ↔ ∃ d', d' ≠ d ∧ HasFile inv inv.head p d')

/-- **C07, what the code computes** on unpadded objects. -/
theorem C07_is_update_exact {inv : Inv} {n : Nat} (hg : GapFree inv n) (ho : OneDigestPerPath inv)
    (hpad : inv.paddingLength ≤ 0) {p d : Str} (hd : d ≠ []) :
    ∃ b, isUpdate inv p d = .ok b ∧ (b = true ↔ ∃ d', d' ≠ d ∧ LastHas inv n p d') := by
  obtain ⟨r, hr⟩ := lastDigest_unpadded_ok hg hpad p
  refine ⟨_, (isUpdate_ok hd).2 ⟨r, hr, rfl⟩, ?_⟩
  rw [decide_eq_true_iff]
  have := lastDigest_spec hg ho hr
  constructor
  · rintro ⟨x, h1, h2⟩; exact ⟨x, h2, (this x).1 h1⟩
  · rintro ⟨x, h1, h2⟩; exact ⟨x, (this x).2 h2, h1⟩

/-- **C07** for unpadded objects and paths which are in the head or were never recorded. -/
theorem C07_is_update_partial {inv : Inv} {n : Nat} (hg : GapFree inv n) (hn : 0 < n)
    (ho : OneDigestPerPath inv) (hpad : inv.paddingLength ≤ 0) {p d : Str} (hd : d ≠ [])
    (hp : HasPath inv inv.head p ∨ ∀ v, ¬ HasPath inv v p) :
    ∃ b, isUpdate inv p d = .ok b ∧ (b = true ↔ ∃ d', d' ≠ d ∧ HasFile inv inv.head p d') := by
  obtain ⟨b, h1, h2⟩ := C07_is_update_exact hg ho hpad (p := p) hd
  refine ⟨b, h1, h2.trans ?_⟩
  rcases hp with hp | hp
  · constructor
    · rintro ⟨x, h1, h2⟩; exact ⟨x, h1, (lastHas_head hg hn ho hp).1 h2⟩
    · rintro ⟨x, h1, h2⟩; exact ⟨x, h1, (lastHas_head hg hn ho hp).2 h2⟩
  · constructor
    · rintro ⟨x, _, k, _, _, h3, _⟩; exact absurd ⟨x, h3⟩ (hp _)
    · rintro ⟨x, _, h⟩; exact absurd ⟨x, h⟩ (hp _)

example : ∃ b, isUpdate exInv "a".toList "d9".toList = .ok b ∧
    (b = true ↔ ∃ d', d' ≠ "d9".toList ∧ HasFile exInv exInv.head "a".toList d') :=
  C07_is_update_partial exInv_gapFree (by decide) exInv_oneDigest (by decide) (by decide)
    (Or.inl ⟨"d1".toList, _, ["a".toList], List.mem_cons_self, by decide, by decide⟩)

/-- **C07 fails**: a deleted path counts as "update" if added with a new digest. -/
theorem C07_full_fails : ¬ C07_full := by
  intro h
  obtain ⟨b, h1, h2⟩ := h exDel 3 "b".toList "d9".toList exDel_gapFree exDel_mapKeysOk exDel_oneDigest
    (by decide) (by decide)
  have : isUpdate exDel "b".toList "d9".toList = .ok true := by decide
  rw [this] at h1; cases h1
  have hs : headState exDel = .ok [("d2".toList, []), ("d1".toList, ["a".toList])] := by decide
  obtain ⟨d', _, hd'⟩ := h2.1 rfl
  obtain ⟨e, he, _, hb⟩ := (hasFile_head_decide exDel_gapFree.nodup hs _ _).1 hd'
  have : ∀ e ∈ [("d2".toList, ([] : List Str)), ("d1".toList, ["a".toList])], "b".toList ∉ e.2 := by
    decide
  exact this e he hb

/-! ## C08 -/

/-- What one successful `addName` does to the head, for a non-empty digest. -/
theorem addName_hasFile {inv inv' : Inv} {n : Nat} (hg : GapFree inv n) (hn : 0 < n)
    (ho : OneDigestPerPath inv) {mp d p : Str} (hd : d ≠ []) (h : addName inv mp d p = .ok inv') :
    (∀ q e, q ≠ p → (HasFile inv' inv'.head q e ↔ HasFile inv inv.head q e)) ∧
    (HasPath inv inv.head p ∨ ¬ LastHas inv n p d →
      ∀ e, HasFile inv' inv'.head p e ↔ e = d) ∧
    (¬ HasPath inv inv.head p → LastHas inv n p d → ∀ e, ¬ HasFile inv' inv'.head p e) := by
  obtain ⟨s, dup, upd, hs, hdup, hupd, hs', _, _, _, hh⟩ := addName_ok h
  have hnod := hg.nodup
  have hf : ∀ q e, HasFile inv' inv'.head q e ↔
      (InSt s q e ∧ (upd = true → q ≠ p)) ∨ (dup = false ∧ q = p ∧ e = d) := by
    intro q e
    rw [hasFile_head (hh.nodup hnod) hs', inSt_stAddName]
  have hf0 : ∀ q e, HasFile inv inv.head q e ↔ InSt s q e := fun q e => hasFile_head hnod hs
  obtain ⟨r, hr, hrd⟩ := (alreadyExists_ok hd).1 hdup
  obtain ⟨r', hr', hru⟩ := (isUpdate_ok hd).1 hupd
  rw [hr] at hr'; cases hr'
  have hls := lastDigest_spec hg ho hr
  have hdupiff : dup = true ↔ LastHas inv n p d := by
    rw [hrd, decide_eq_true_iff, hls]
  have hupdiff : upd = true ↔ ∃ x, x ≠ d ∧ LastHas inv n p x := by
    rw [hru, decide_eq_true_iff]
    constructor
    · rintro ⟨x, h1, h2⟩; exact ⟨x, h2, (hls x).1 h1⟩
    · rintro ⟨x, h1, h2⟩; exact ⟨x, (hls x).2 h2, h1⟩
  refine ⟨?_, ?_, ?_⟩
  · intro q e hq
    rw [hf, hf0]
    constructor
    · rintro (⟨h, _⟩ | ⟨_, h, _⟩)
      · exact h
      · exact absurd h hq
    · intro h; exact Or.inl ⟨h, fun _ => hq⟩
  · intro hcase e
    rw [hf]
    constructor
    · rintro (⟨h1, h2⟩ | ⟨_, _, h⟩)
      · have hl : LastHas inv n p e := (lastHas_head hg hn ho ⟨e, (hf0 _ _).2 h1⟩).2 ((hf0 _ _).2 h1)
        by_contra he
        exact h2 (hupdiff.2 ⟨e, he, hl⟩) rfl
      · exact h
    · rintro rfl
      cases hdd : dup with
      | false => exact Or.inr ⟨rfl, rfl, rfl⟩
      | true =>
        have hl := hdupiff.1 hdd
        have hp : HasPath inv inv.head p := hcase.resolve_right (fun h => h hl)
        refine Or.inl ⟨(hf0 _ _).1 ((lastHas_head hg hn ho hp).1 hl), ?_⟩
        intro hu
        obtain ⟨x, hx, hlx⟩ := hupdiff.1 hu
        exact absurd (hlx.unique hnod ho hl) hx
  · intro hnp hl e
    rw [hf]
    rintro (⟨h1, _⟩ | ⟨h1, _, _⟩)
    · exact hnp ⟨e, (hf0 _ _).2 h1⟩
    · rw [hdupiff.2 hl] at h1; cases h1

theorem addName_oneDigest {inv inv' : Inv} {n : Nat} (hg : GapFree inv n) (hn : 0 < n)
    (ho : OneDigestPerPath inv) {mp d p : Str} (hd : d ≠ []) (h : addName inv mp d p = .ok inv') :
    OneDigestPerPath inv' := by
  obtain ⟨s, dup, upd, hs, hdup, hupd, hs', _, _, _, hh⟩ := addName_ok h
  refine hh.states (P := fun s => (statePaths s).Nodup) hg.nodup ho ?_
  intro t t' ht ht' hP
  rw [hs] at ht; cases ht
  rw [hs'] at ht'; cases ht'
  have h1 : (statePaths (stTouch s d)).Nodup := by rw [statePaths_stTouch]; exact hP
  have h2 : (statePaths (if upd = true then stDelete (stTouch s d) p else stTouch s d)).Nodup := by
    split
    · rw [statePaths_stDelete]; exact h1.filter _
    · exact h1
  cases hdd : dup with
  | true => exact h2
  | false =>
    show (statePaths (stAppend _ d p)).Nodup
    rw [(statePaths_stAppend _ _ _).nodup_iff, List.nodup_cons]
    refine ⟨?_, h2⟩
    obtain ⟨r, hr, hrd⟩ := (alreadyExists_ok hd).1 hdup
    obtain ⟨r', hr', hru⟩ := (isUpdate_ok hd).1 hupd
    rw [hr] at hr'; cases hr'
    cases hu : upd with
    | true => simp [statePaths_stDelete]
    | false =>
      simp only [Bool.false_eq_true, if_false]
      rw [statePaths_stTouch]
      intro hmem
      obtain ⟨x, hx⟩ := mem_statePaths.1 hmem
      have hl := lastDigest_head hg hn hs ((digestOf_eq_some_iff hP).2 hx) hr
      subst hl
      by_cases hxd : x = d
      · subst hxd; rw [hdd] at hrd; simp at hrd
      · rw [hu] at hru; simp [hxd] at hru

/-- **C08, full statement** (false). -/
def C08_full : Prop :=
  ∀ (inv inv' : Inv) (n : Nat) (ns : List Str) (mp dig : Str) (cs : AMap Str Str),
    GapFree inv n → 0 < n → MapKeysOk inv → OneDigestPerPath inv →
    mget cs inv.digestAlg = some dig → dig ≠ [] → addFile inv ns mp cs = .ok inv' →
    (∀ p ∈ ns, ∀ e, HasFile inv' inv'.head p e ↔ e = toLower dig) ∧
    (∀ q ∉ ns, ∀ e, HasFile inv' inv'.head q e ↔ HasFile inv inv.head q e)

theorem lastHas_other {inv inv' : Inv} {n : Nat} (hg : GapFree inv n) (hn : 0 < n)
    (hh : HeadOnly inv inv') {q d : Str}
    (hq : ∀ e, HasFile inv' inv'.head q e ↔ HasFile inv inv.head q e) :
    LastHas inv' n q d ↔ LastHas inv n q d := by
  have hf : ∀ k : Nat, 1 ≤ k → k ≤ n → ∀ e, HasFile inv' (verName inv'.paddingLength (k : Nat)) q e ↔
      HasFile inv (verName inv.paddingLength (k : Nat)) q e := by
    intro k h1 h2 e
    rw [hh.pad]
    by_cases hk : k = n
    · subst hk; rw [← hg.head_eq hn]
      have := hq e; rw [hh.head] at this; exact this
    · refine hh.hasFile_other hg.nodup ?_
      rw [hg.head_eq hn]; intro he; exact hk (verName_inj he)
  unfold LastHas HasPath
  constructor
  · rintro ⟨k, h1, h2, h3, h4⟩
    exact ⟨k, h1, h2, (hf k h1 h2 d).1 h3, fun j hj hj' ⟨e, he⟩ =>
      h4 j hj hj' ⟨e, (hf j (by omega) hj' e).2 he⟩⟩
  · rintro ⟨k, h1, h2, h3, h4⟩
    exact ⟨k, h1, h2, (hf k h1 h2 d).2 h3, fun j hj hj' ⟨e, he⟩ =>
      h4 j hj hj' ⟨e, (hf j (by omega) hj' e).1 he⟩⟩

theorem oneDigest_of_versions {a b : Inv} (h : b.versions = a.versions) (ho : OneDigestPerPath a) :
    OneDigestPerPath b := by intro v ver hm; rw [h] at hm; exact ho v ver hm

/-- **C08** for every path that is not "deleted since, but last seen with this very digest": after the
file is recorded the head maps each given path to the file's digest and to no other, and every other
path as before.  Any padding, any number of names. -/
theorem C08_add_file_partial {inv inv' : Inv} {n : Nat} {ns : List Str} {mp dig : Str}
    {cs : AMap Str Str} (hg : GapFree inv n) (hn : 0 < n) (ho : OneDigestPerPath inv)
    (hdig : mget cs inv.digestAlg = some dig) (hne : dig ≠ [])
    (hok : ∀ p ∈ ns, HasPath inv inv.head p ∨ ¬ LastHas inv n p (toLower dig))
    (h : addFile inv ns mp cs = .ok inv') :
    (∀ p ∈ ns, ∀ e, HasFile inv' inv'.head p e ↔ e = toLower dig) ∧
    (∀ q ∉ ns, ∀ e, HasFile inv' inv'.head q e ↔ HasFile inv inv.head q e) := by
  obtain ⟨dig', hdig', h⟩ := addFile_ok h
  rw [hdig] at hdig'; cases hdig'
  have hne' : toLower dig ≠ [] := by simpa [toLower] using hne
  obtain ⟨f1, f2, _, _, f5⟩ := addFixity_fold inv mp cs
  set i0 := cs.foldl (fun i c => addFixity i mp c) inv with hi0
  have key : ∀ (ns : List Str) (i : Inv), HeadOnly inv i → OneDigestPerPath i →
      (∀ p ∈ ns, HasPath i i.head p ∨ ¬ LastHas i n p (toLower dig)) →
      ns.foldlM (fun i n => addName i mp (toLower dig) n) i = .ok inv' →
      (∀ p ∈ ns, ∀ e, HasFile inv' inv'.head p e ↔ e = toLower dig) ∧
      (∀ q ∉ ns, ∀ e, HasFile inv' inv'.head q e ↔ HasFile i i.head q e) := by
    intro ns
    induction ns with
    | nil => intro i _ _ _ h; cases h; exact ⟨by simp, fun _ _ _ => Iff.rfl⟩
    | cons p ns ih =>
      intro i hhi hoi hoki h
      rw [List.foldlM_cons] at h
      obtain ⟨j, hj, h⟩ := res_bind_eq_ok.1 h
      have hgi := hhi.gapFree hg
      obtain ⟨a1, a2, _⟩ := addName_hasFile hgi hn hoi hne' hj
      have hhij := addName_headOnly hj
      have a2 := a2 (hoki p (by simp))
      obtain ⟨b1, b2⟩ := ih j (hhi.trans hhij) (addName_oneDigest hgi hn hoi hne' hj) (by
        intro q hq
        by_cases hqp : q = p
        · subst hqp; exact Or.inl ⟨_, (a2 _).2 rfl⟩
        · rcases hoki q (by simp [hq]) with hx | hx
          · obtain ⟨e, he⟩ := hx; exact Or.inl ⟨e, (a1 q e hqp).2 he⟩
          · exact Or.inr (fun hl => hx ((lastHas_other hgi hn hhij (fun e => a1 q e hqp)).1 hl))) h
      refine ⟨?_, ?_⟩
      · intro q hq e
        by_cases hqn : q ∈ ns
        · exact b1 q hqn e
        · have : q = p := by rcases List.mem_cons.1 hq with h | h; exact h; exact absurd h hqn
          subst this
          rw [b2 q hqn e, a2 e]
      · intro q hq e
        simp only [List.mem_cons, not_or] at hq
        rw [b2 q hq.2 e, a1 q e hq.1]
  have hf : ∀ q e, HasFile i0 i0.head q e ↔ HasFile inv inv.head q e := by
    intro q e; unfold HasFile; rw [f1, f2]
  obtain ⟨k1, k2⟩ := key ns i0 f5 (oneDigest_of_versions f1 ho) (by
    intro p hp
    rcases hok p hp with ⟨e, he⟩ | hx
    · exact Or.inl ⟨e, (hf p e).2 he⟩
    · exact Or.inr (fun hl => hx ((lastHas_other hg hn f5 (hf p)).1 hl))) h
  exact ⟨k1, fun q hq e => (k2 q hq e).trans (hf q e)⟩

example : ∀ inv', addFile exInv ["a".toList, "z".toList] "v2/content/q".toList
      [("sha512".toList, "AB".toList)] = .ok inv' →
    (∀ e, HasFile inv' inv'.head "a".toList e ↔ e = "ab".toList) ∧
    HasFile inv' inv'.head "b".toList "d2".toList := by
  intro inv' h
  have hl : ∀ p d, LastHas exInv 2 p d → ∃ e ∈ exInv.versions, ∃ f ∈ e.2.state, f.1 = d ∧ p ∈ f.2 := by
    rintro p d ⟨k, _, _, ⟨ver, ps, h1, h2, h3⟩, _⟩
    exact ⟨_, h1, _, h2, rfl, h3⟩
  have := C08_add_file_partial exInv_gapFree (by decide) exInv_oneDigest (dig := "AB".toList)
    (by decide) (by decide) (by
      intro p _; right; intro hh
      have := hl _ _ hh
      obtain ⟨e, he, f, hf, h1, _⟩ := this
      have hall : ∀ e ∈ exInv.versions, ∀ f ∈ e.2.state, f.1 ≠ toLower "AB".toList := by decide
      exact hall e he f hf h1) h
  refine ⟨this.1 _ (by decide), (this.2 "b".toList (by decide) _).2 ?_⟩
  exact ⟨_, ["b".toList], List.mem_cons_self, List.mem_cons_self, by decide⟩

/-- **C08 fails** for every deleted file that is added again with the content it last had: the call
succeeds, but the head does not get the path. -/
theorem C08_full_fails_readd {inv inv' : Inv} {n : Nat} (hg : GapFree inv n) (hn : 0 < n)
    (ho : OneDigestPerPath inv) {p mp dig : Str} {cs : AMap Str Str}
    (hdig : mget cs inv.digestAlg = some dig) (hne : dig ≠ [])
    (hdel : ¬ HasPath inv inv.head p) (hlast : LastHas inv n p (toLower dig))
    (h : addFile inv [p] mp cs = .ok inv') : ¬ HasPath inv' inv'.head p := by
  obtain ⟨dig', hdig', h⟩ := addFile_ok h
  rw [hdig] at hdig'; cases hdig'
  have hne' : toLower dig ≠ [] := by simpa [toLower] using hne
  obtain ⟨f1, f2, _, _, f5⟩ := addFixity_fold inv mp cs
  set i0 := cs.foldl (fun i c => addFixity i mp c) inv
  have hf : ∀ q e, HasFile i0 i0.head q e ↔ HasFile inv inv.head q e := by
    intro q e; unfold HasFile; rw [f1, f2]
  rw [List.foldlM_cons] at h
  obtain ⟨j, hj, h⟩ := res_bind_eq_ok.1 h
  cases h
  obtain ⟨_, _, a3⟩ := addName_hasFile (f5.gapFree hg) hn (oneDigest_of_versions f1 ho) hne' hj
  rintro ⟨e, he⟩
  exact a3 (fun ⟨x, hx⟩ => hdel ⟨x, (hf p x).1 hx⟩) ((lastHas_other hg hn f5 (hf p)).2 hlast) e he

theorem exDel_lastHas : LastHas exDel 3 "b".toList "d2".toList := by
  refine ⟨2, by decide, by decide, ⟨_, ["b".toList], List.mem_cons_of_mem _ List.mem_cons_self,
    List.mem_cons_self, by decide⟩, ?_⟩
  intro j h1 h2
  have : j = 3 := by omega
  subst this
  have hs : headState exDel = .ok [("d2".toList, []), ("d1".toList, ["a".toList])] := by decide
  rintro ⟨e, he⟩
  obtain ⟨x, hx, _, hb⟩ := (hasFile_head_decide exDel_gapFree.nodup hs _ _).1 he
  have : ∀ e ∈ [("d2".toList, ([] : List Str)), ("d1".toList, ["a".toList])], "b".toList ∉ e.2 := by
    decide
  exact this x hx hb

theorem exDel_not_head : ¬ HasPath exDel exDel.head "b".toList := by
  have hs : headState exDel = .ok [("d2".toList, []), ("d1".toList, ["a".toList])] := by decide
  rintro ⟨e, he⟩
  obtain ⟨x, hx, _, hb⟩ := (hasFile_head_decide exDel_gapFree.nodup hs _ _).1 he
  have : ∀ e ∈ [("d2".toList, ([] : List Str)), ("d1".toList, ["a".toList])], "b".toList ∉ e.2 := by
    decide
  exact this x hx hb

theorem C08_full_fails : ¬ C08_full := by
  intro h
  have hsome : (addFile exDel ["b".toList] "v3/content/b".toList
      [("sha512".toList, "d2".toList)]).toOption.isSome = true := by decide
  cases hr : addFile exDel ["b".toList] "v3/content/b".toList [("sha512".toList, "d2".toList)] with
  | error e => rw [hr] at hsome; cases hsome
  | ok inv' =>
    have h1 := (h exDel inv' 3 _ _ "d2".toList _ exDel_gapFree (by decide) exDel_mapKeysOk
      exDel_oneDigest (by decide) (by decide) hr).1 "b".toList (by decide)
    exact C08_full_fails_readd exDel_gapFree (by decide) exDel_oneDigest (dig := "d2".toList)
      (by decide) (by decide) exDel_not_head exDel_lastHas hr ⟨_, (h1 _).2 rfl⟩

end Gocfl
