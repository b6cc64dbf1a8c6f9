import Verif.Props.Compare

/-!
# Validation does not depend on map order (C44)
-/

namespace Gocfl

/-- Same version, the state map in another order. -/
def SameVersion (v w : Version) : Prop :=
  v.created = w.created ∧ v.message = w.message ∧ v.userName = w.userName ∧ v.userAddress = w.userAddress ∧
  v.state.Perm w.state

/-- `r'` is the same decoded inventory as `r`, its maps (manifest, versions, each state, fixity and each of
its blocks) iterated in another order. -/
structure Reordered (r r' : RawInv) : Prop where
  id : r.inv.id = r'.inv.id
  spec : r.inv.spec = r'.inv.spec
  digestAlg : r.inv.digestAlg = r'.inv.digestAlg
  head : r.inv.head = r'.inv.head
  contentDirectory : r.inv.contentDirectory = r'.inv.contentDirectory
  headNil : r.headNil = r'.headNil
  headErr : r.headErr = r'.headErr
  manifestNil : r.manifestNil = r'.manifestNil
  versionsNil : r.versionsNil = r'.versionsNil
  vm : ∀ v, r.vm v = r'.vm v
  manifest : r.inv.manifest.Perm r'.inv.manifest
  versionKeys : (mkeys r.inv.versions).Perm (mkeys r'.inv.versions)
  versions : ∀ k v, (k, v) ∈ r.inv.versions → ∃ w, (k, w) ∈ r'.inv.versions ∧ SameVersion v w
  versions' : ∀ k w, (k, w) ∈ r'.inv.versions → ∃ v, (k, v) ∈ r.inv.versions ∧ SameVersion v w
  fixity : ∀ a m, (a, m) ∈ r.inv.fixity → ∃ m', (a, m') ∈ r'.inv.fixity ∧ m.Perm m'
  fixity' : ∀ a m', (a, m') ∈ r'.inv.fixity → ∃ m, (a, m) ∈ r.inv.fixity ∧ m.Perm m'
  fixityKeys : (mkeys r.inv.fixity).Perm (mkeys r'.inv.fixity)

theorem Reordered.symm {r r' : RawInv} (h : Reordered r r') : Reordered r' r where
  id := h.id.symm
  spec := h.spec.symm
  digestAlg := h.digestAlg.symm
  head := h.head.symm
  contentDirectory := h.contentDirectory.symm
  headNil := h.headNil.symm
  headErr := h.headErr.symm
  manifestNil := h.manifestNil.symm
  versionsNil := h.versionsNil.symm
  vm := fun v => (h.vm v).symm
  manifest := h.manifest.symm
  versionKeys := h.versionKeys.symm
  versions := fun k w hw => by
    obtain ⟨v, hv, a, b, c, d, e⟩ := h.versions' k w hw
    exact ⟨v, hv, a.symm, b.symm, c.symm, d.symm, e.symm⟩
  versions' := fun k v hv => by
    obtain ⟨w, hw, a, b, c, d, e⟩ := h.versions k v hv
    exact ⟨w, hw, a.symm, b.symm, c.symm, d.symm, e.symm⟩
  fixity := fun a m hm => by
    obtain ⟨m', hm', hp⟩ := h.fixity' a m hm
    exact ⟨m', hm', hp.symm⟩
  fixity' := fun a m hm => by
    obtain ⟨m', hm', hp⟩ := h.fixity a m hm
    exact ⟨m', hm', hp.symm⟩
  fixityKeys := h.fixityKeys.symm

/-- The full statement: the same set of findings in every order (and a crash in every order or none). -/
def C44_full : Prop :=
  ∀ env r r', Reordered r r' → (mkeys r.inv.versions).Nodup → (mkeys r.inv.manifest).Nodup →
    (∀ fs, check env r = .ok fs → ∃ fs', check env r' = .ok fs' ∧ ∀ x, x ∈ fs ↔ x ∈ fs')

/-! ## Crashes do not depend on the order -/

theorem check_isOk {env : Env} {r : RawInv} : (∃ fs, check env r = .ok fs) ↔
    (∃ g, checkVersions env r = .ok g) ∧ (∃ g, checkManifest r.inv = .ok g) ∧ (∃ g, checkFixity r.inv = .ok g) := by
  unfold check
  constructor
  · rintro ⟨b, hb⟩
    obtain ⟨x, hx, hb⟩ := res_bind_eq_ok.1 hb
    obtain ⟨y, hy, hb⟩ := res_bind_eq_ok.1 hb
    obtain ⟨z, hz, hb⟩ := res_bind_eq_ok.1 hb
    exact ⟨⟨x, hx⟩, ⟨y, hy⟩, ⟨z, hz⟩⟩
  · rintro ⟨⟨x, hx⟩, ⟨y, hy⟩, ⟨z, hz⟩⟩
    exact ⟨_, by rw [hx, hy, hz]; rfl⟩

theorem check_ok_of_reordered {env : Env} {r r' : RawInv} (h : Reordered r r')
    (hok : ∃ fs, check env r = .ok fs) : ∃ fs, check env r' = .ok fs := by
  rw [check_isOk, checkVersions_isOk, checkManifest_isOk, checkFixity_isOk] at hok ⊢
  obtain ⟨⟨h1, h2, h3⟩, h4, h5⟩ := hok
  refine ⟨⟨?_, by rw [← h.headNil]; exact h2, ?_⟩, ?_, ?_⟩
  · rintro ⟨k, w⟩ hk
    obtain ⟨v, hv, _, _, _, _, hp⟩ := h.versions' k w hk
    have := h1 _ hv
    rw [versionFnd_isOk] at this ⊢
    intro hn
    refine ⟨by rw [← h.vm]; exact (this hn).1, ?_⟩
    intro d ps hd
    exact (this hn).2 d ps (hp.mem_iff.2 hd)
  · rintro ⟨k, w⟩ hk
    obtain ⟨v, hv, _⟩ := h.versions' k w hk
    have := h3 _ hv
    rw [logicalVersionFnd_isOk] at this ⊢
    rw [← h.vm]; exact this
  · intro d ps hd
    exact h4 d ps (h.manifest.mem_iff.2 hd)
  · intro a m d ps ha hd
    obtain ⟨m', hm', hp⟩ := h.fixity' a m ha
    exact h5 a m' d ps hm' (hp.mem_iff.2 hd)

/-- **C44, crashes**: whether validation crashes does not depend on the map order, whatever the names. -/
theorem C44_crash_order_independent {env : Env} {r r' : RawInv} (h : Reordered r r') :
    (∃ fs, check env r = .ok fs) ↔ ∃ fs, check env r' = .ok fs :=
  ⟨check_ok_of_reordered h, check_ok_of_reordered h.symm⟩

/-! ## Padding of uniform names -/

theorem isDigits_fmt (z n : Nat) : isDigits (List.replicate z '0' ++ fmtNat n) = true := by
  have h := fmtNat_isDigits n
  unfold isDigits at *
  simp only [Bool.and_eq_true, Bool.not_eq_true', List.isEmpty_eq_false_iff] at *
  refine ⟨by simp [h.1], ?_⟩
  rw [List.all_append, h.2]
  simp [List.all_replicate]

theorem verName_zero (n : Nat) : verName ((0 : Nat) : Int) (n : Int) = 'v' :: fmtNat n := rfl

theorem verName_pos {p : Nat} (hp : 0 < p) (n : Nat) :
    verName (p : Int) (n : Int) = 'v' :: '0' :: (List.replicate (p - (fmtNat n).length) '0' ++ fmtNat n) := by
  unfold verName
  rw [if_neg (by omega)]
  rfl

theorem padStep_uniform {p n : Nat} (hn : 0 < n) (hw : 0 < p → (fmtNat n).length ≤ p) {pad : Int}
    (hpad : pad = -1 ∨ pad = p) : padStep pad (verName (p : Int) (n : Int)) = ((p : Int), []) := by
  rcases Nat.eq_zero_or_pos p with rfl | hp
  · rw [verName_zero]
    obtain ⟨c, t, hc, h0⟩ := fmtNat_head_ne_zero hn
    have hd := fmtNat_all_digits n
    rw [hc] at hd ⊢
    simp only [List.all_cons, Bool.and_eq_true] at hd
    have hz : zeroName ('v' :: c :: t) = false := by
      unfold zeroName
      split
      · rename_i h; injection h with _ h; injection h with h _; exact absurd h h0
      · rfl
    have hnz : noZeroName ('v' :: c :: t) = true := by
      simp [noZeroName, hd.1, hd.2, h0]
    unfold padStep
    rw [hz, hnz]
    simp only [Bool.false_eq_true, if_false, if_true]
    rcases hpad with rfl | rfl
    · simp
    · simp
  · have hz : zeroName (verName (p : Int) (n : Int)) = true := by
      rw [verName_pos hp]; exact isDigits_fmt _ _
    have hlen : ((verName (p : Int) (n : Int)).length : Int) - 2 = p := by
      rw [verName_pos hp]
      have := hw hp
      simp; omega
    unfold padStep
    rw [hz, hlen]
    simp only [if_true]
    rcases hpad with rfl | rfl
    · simp
    · rw [if_neg (by omega)]; simp

theorem padFold_uniform {p : Nat} {l : List Str} (hu : Uniform p l) {pad : Int} (hpad : pad = -1 ∨ pad = p) :
    padFold pad l = (if l = [] then pad else (p : Int), []) := by
  induction l generalizing pad with
  | nil => rfl
  | cons k l ih =>
    obtain ⟨n, hn, hw, rfl⟩ := hu k (by simp)
    rw [padFold, (nameOf_verName (p : Int) hn).verNumber]
    simp only [padStep_uniform hn hw hpad, ih (fun k hk => hu k (by simp [hk])) (Or.inr rfl)]
    simp

theorem computedPadding_uniform {inv : Inv} {p : Nat} (hu : Uniform p (mkeys inv.versions)) :
    computedPadding inv = if mkeys inv.versions = [] then -1 else (p : Int) := by
  unfold computedPadding
  rw [padFold_uniform hu (Or.inl rfl)]

/-! ## Digests differing only in case -/

theorem sliceInsertSorted_sorted {l : List Str} (hs : l.Pairwise (fun a b => strLe a b = true)) (v : Str) :
    (sliceInsertSorted l v).Pairwise (fun a b => strLe a b = true) ∧ ∀ x, x ∈ sliceInsertSorted l v ↔ x = v ∨ x ∈ l := by
  have spec := bsearchLoop_spec l v hs (l.length + 1) 0 l.length (by omega) (by omega) (by omega)
    (by intro k hk; omega) (by intro k h1 h2; omega)
  simp only at spec
  have hr : (bsearch l v).1 = bsearchLoop l v (l.length + 1) 0 l.length := rfl
  unfold sliceInsertSorted
  rw [hr]
  generalize bsearchLoop l v (l.length + 1) 0 l.length = r at spec
  obtain ⟨_, hlo, hhi⟩ := spec
  have getD_eq : ∀ k (h : k < l.length), l.getD k [] = l[k] := by
    intro k h; simp [List.getD_eq_getElem?_getD, List.getElem?_eq_getElem h]
  have h1 : ∀ a ∈ l.take r, strLe a v = true := by
    intro a ha
    obtain ⟨k, hk, rfl⟩ := List.mem_iff_getElem.1 ha
    rw [List.length_take] at hk
    rw [List.getElem_take]
    have := hlo k (by omega)
    rw [getD_eq k (by omega)] at this
    simp only [strLt, Bool.not_eq_true'] at this
    rcases strLe_total (l[k]) v with h | h
    · exact h
    · rw [this] at h; cases h
  have h2 : ∀ a ∈ l.drop r, strLe v a = true := by
    intro a ha
    obtain ⟨k, hk, rfl⟩ := List.mem_iff_getElem.1 ha
    rw [List.length_drop] at hk
    rw [List.getElem_drop]
    have := hhi (r + k) (by omega) (by omega)
    rw [getD_eq _ (by omega)] at this
    simpa [strLt] using this
  constructor
  · rw [List.pairwise_append]
    refine ⟨hs.sublist (List.take_sublist _ _), List.pairwise_cons.2 ⟨h2, hs.sublist (List.drop_sublist _ _)⟩, ?_⟩
    intro a ha b hb
    rcases List.mem_cons.1 hb with rfl | hb
    · exact h1 a ha
    · exact strLe_trans (h1 a ha) (h2 b hb)
  · intro x
    rw [List.mem_append, List.mem_cons]
    constructor
    · rintro (h | h | h)
      · exact Or.inr (List.mem_of_mem_take h)
      · exact Or.inl h
      · exact Or.inr (List.mem_of_mem_drop h)
    · rintro (h | h)
      · exact Or.inr (Or.inl h)
      · rw [← List.take_append_drop r l, List.mem_append] at h
        rcases h with h | h
        · exact Or.inl h
        · exact Or.inr (Or.inr h)

theorem fixityDigestFnd_nil_iff {alg : Str} {l seen : List Str}
    (hs : seen.Pairwise (fun a b => strLe a b = true)) :
    fixityDigestFnd alg seen l = [] ↔ (l.map toLower).Nodup ∧ ∀ d ∈ l, toLower d ∉ seen := by
  induction l generalizing seen with
  | nil => simp [fixityDigestFnd]
  | cons d l ih =>
    have hb := bsearch_found_iff seen (toLower d) hs
    rw [fixityDigestFnd]
    by_cases h : toLower d ∈ seen
    · rw [if_pos (hb.2 h)]
      simp [h]
    · rw [if_neg (fun hc => h (hb.1 hc)), ih (sliceInsertSorted_sorted hs _).1]
      have hm := (sliceInsertSorted_sorted hs (toLower d)).2
      simp only [hm, List.map_cons, List.nodup_cons, List.mem_map, List.mem_cons, forall_eq_or_imp, not_or]
      constructor
      · rintro ⟨h1, h2⟩
        refine ⟨⟨?_, h1⟩, h, fun a ha => (h2 a ha).2⟩
        rintro ⟨a, ha, he⟩
        exact (h2 a ha).1 he
      · rintro ⟨⟨h1, h2⟩, _, h3⟩
        exact ⟨h2, fun a ha => ⟨fun he => h1 ⟨a, ha, he⟩, h3 a ha⟩⟩

/-! ## The findings -/

theorem metaFnd_same {env : Env} {m : VMeta} {k : Str} {v w : Version} (h : SameVersion v w) :
    metaFnd env m k v = metaFnd env m k w := by
  unfold metaFnd
  rw [h.2.2.2.1]

theorem mem_stateEntryFnd_perm {man man' : DMap} (hp : man.Perm man') {ver : Str} {e : Str × List Str} :
    stateEntryFnd man ver e = stateEntryFnd man' ver e := by
  unfold stateEntryFnd
  have h1 : sortStr (mkeys man) = sortStr (mkeys man') := sortStr_perm_eq (hp.map _)
  have h2 : sortStr ((mkeys man).map toLower) = sortStr ((mkeys man').map toLower) :=
    sortStr_perm_eq ((hp.map _).map _)
  rw [h1, h2]

theorem checkScalars_reordered {env : Env} {r r' : RawInv} (h : Reordered r r') :
    checkScalars env r = checkScalars env r' := by
  unfold checkScalars
  simp only [h.id, h.spec, h.digestAlg, h.head, h.contentDirectory, h.headErr]

theorem mem_findings_reordered {env : Env} {r r' : RawInv} (h : Reordered r r') {p : Nat}
    (hu : Uniform p (mkeys r.inv.versions)) (hn : (mkeys r.inv.versions).Nodup)
    (hm : (mkeys r.inv.manifest).Nodup) {fs fs' : List Fnd} (hf : check env r = .ok fs)
    (hf' : check env r' = .ok fs') {x : Fnd} (hx : x ∈ fs) (hc : x.code ≠ .E 97) : x ∈ fs' := by
  have F := check_findings hf
  have F' := check_findings hf'
  have hu' : Uniform p (mkeys r'.inv.versions) := fun k hk => hu k (h.versionKeys.mem_iff.2 hk)
  have hn' : (mkeys r'.inv.versions).Nodup := h.versionKeys.nodup_iff.1 hn
  have hm' : (mkeys r'.inv.manifest).Nodup := (h.manifest.map _).nodup_iff.1 hm
  have hnil : mkeys r.inv.versions = [] ↔ mkeys r'.inv.versions = [] := by
    constructor
    · intro e; have := h.versionKeys; rw [e] at this; exact this.nil_eq.symm
    · intro e; have := h.versionKeys.symm; rw [e] at this; exact this.nil_eq.symm
  have hcp : computedPadding r.inv = computedPadding r'.inv := by
    rw [computedPadding_uniform hu, computedPadding_uniform hu']
    by_cases e : mkeys r.inv.versions = []
    · rw [if_pos e, if_pos (hnil.1 e)]
    · rw [if_neg e, if_neg (fun e' => e (hnil.2 e'))]
  have hgs : getVersionStrings r.inv = getVersionStrings r'.inv := by
    rw [getVersionStrings_uniform hu hn, getVersionStrings_uniform hu' hn']
    congr 1
    exact sortInt_unique ((h.versionKeys.map _).trans (sortInt_perm _).symm) (sortInt_sorted _)
  have hrec : recentVersion r.inv = recentVersion r'.inv := by
    by_cases e : r.inv.versions = []
    · have e' : r'.inv.versions = [] := by
        have := hnil.1 (by rw [e]; rfl)
        simpa [mkeys] using this
      simp [recentVersion, getVersionStrings, e, e']
    · have e' : r'.inv.versions ≠ [] := by
        intro e'
        have := hnil.2 (by rw [e']; rfl)
        exact e (by simpa [mkeys] using this)
      have h1 := recentVersion_uniform hu hn e
      have h2 := recentVersion_uniform hu' hn' e'
      refine IsHighest.unique h1 ?_
      obtain ⟨n, a, b, c, d⟩ := h2
      exact ⟨n, a, b, h.versionKeys.mem_iff.2 c, fun m hm hk => d m hm (h.versionKeys.mem_iff.1 hk)⟩
  have hpaths : ∀ q, q ∈ r.inv.manifest.flatMap (·.2) → q ∈ r'.inv.manifest.flatMap (·.2) := by
    intro q hq
    obtain ⟨e, he, hq⟩ := List.mem_flatMap.1 hq
    exact List.mem_flatMap.2 ⟨e, h.manifest.mem_iff.1 he, hq⟩
  rcases (F.mem x).1 hx with g | g | g | g | g | g | g | g | g | g | g | g | g
  · refine (F'.mem x).2 (Or.inl ⟨?_, g.2⟩)
    have := hnil.1 (by rw [g.1]; rfl)
    simpa [mkeys] using this
  · rw [padFold_uniform hu (Or.inl rfl)] at g; simp at g
  · refine (F'.mem x).2 (Or.inr (Or.inr (Or.inl ?_)))
    obtain ⟨⟨k, v⟩, he, g, hg, hxg⟩ := g
    obtain ⟨w, hw, hsame⟩ := h.versions k v he
    obtain ⟨g', hg'⟩ := F'.versions_ok _ hw
    refine ⟨_, hw, g', hg', ?_⟩
    cases hk : verNumber k with
    | none => unfold versionFnd at hg; rw [hk] at hg; cases hg; simp at hxg
    | some n =>
      obtain ⟨a, b, ha, hb, rfl⟩ := versionFnd_ok (e := (k, v)) hk hg
      obtain ⟨a', b', ha', hb', rfl⟩ := versionFnd_ok (e := (k, w)) hk hg'
      rw [← h.vm, ← metaFnd_same hsame, ha] at ha'
      cases ha'
      rcases List.mem_append.1 hxg with hxa | hxb
      · exact List.mem_append.2 (Or.inl hxa)
      · refine List.mem_append.2 (Or.inr ?_)
        obtain ⟨s, hs, gs, hgs, hxs⟩ := (mem_collect hb x).1 hxb
        refine (mem_collect hb' x).2 ⟨s, hsame.2.2.2.2.mem_iff.1 hs, gs, ?_, hxs⟩
        rw [← mem_stateEntryFnd_perm h.manifest]; exact hgs
  · refine (F'.mem x).2 (Or.inr (Or.inr (Or.inr (Or.inl ?_))))
    have : sortInt (versionNumbers r.inv) = sortInt (versionNumbers r'.inv) :=
      sortInt_unique ((h.versionKeys.filterMap _).trans (sortInt_perm _).symm) (sortInt_sorted _)
    unfold sequenceFnd at g ⊢
    rw [← this]; exact g
  · refine (F'.mem x).2 (Or.inr (Or.inr (Or.inr (Or.inr (Or.inl ?_)))))
    rw [← hcp]; exact g
  · refine (F'.mem x).2 (Or.inr (Or.inr (Or.inr (Or.inr (Or.inr (Or.inl ?_))))))
    unfold headFnd at g ⊢
    rw [← hrec, ← hgs, ← h.head]; exact g
  · refine (F'.mem x).2 (Or.inr (Or.inr (Or.inr (Or.inr (Or.inr (Or.inr (Or.inl ?_)))))))
    obtain ⟨⟨k, v⟩, he, hxe⟩ := g
    obtain ⟨w, hw, hsame⟩ := h.versions k v he
    refine ⟨_, hw, ?_⟩
    have : sortStr (statePaths v.state) = sortStr (statePaths w.state) :=
      sortStr_perm_eq (hsame.2.2.2.2.flatMap_right _)
    unfold logicalFnd at hxe ⊢
    rw [← this]; exact hxe
  · apply (F'.mem x).2
    iterate 7 right
    left
    rw [mem_manifestDigestFnd hm (by simp)] at g
    rw [mem_manifestDigestFnd hm' (by simp)]
    obtain ⟨d, hd, hu2, rfl⟩ := g
    refine ⟨d, (h.manifest.map _).mem_iff.1 hd, ?_, rfl⟩
    intro hc
    apply hu2
    obtain ⟨⟨k, w⟩, he, hd⟩ := List.mem_flatMap.1 hc
    obtain ⟨v, hv, hsame⟩ := h.versions' k w he
    exact List.mem_flatMap.2 ⟨_, hv, (hsame.2.2.2.2.map _).mem_iff.2 hd⟩
  · obtain ⟨q, hq, gg⟩ := g
    exact (F'.mem x).2 (by (iterate 8 right); exact Or.inl ⟨q, hpaths q hq, gg⟩)
  · apply (F'.mem x).2
    iterate 9 right
    left
    have : sortStr (r.inv.manifest.flatMap (·.2)) = sortStr (r'.inv.manifest.flatMap (·.2)) :=
      sortStr_perm_eq (h.manifest.flatMap_right _)
    unfold contentFnd at g ⊢
    rw [← this]; exact g
  · obtain ⟨a, _, ha⟩ := g
    exact absurd (fixityDigestFnd_codes ha) hc
  · obtain ⟨⟨a, m⟩, ha, q, hq, gg⟩ := g
    obtain ⟨m', hm', hp⟩ := h.fixity a m ha
    apply (F'.mem x).2
    iterate 11 right
    refine Or.inl ⟨_, hm', q, ?_, gg⟩
    obtain ⟨e, he, hq⟩ := List.mem_flatMap.1 hq
    exact List.mem_flatMap.2 ⟨e, hp.mem_iff.1 he, hq⟩
  · rw [checkScalars_reordered h] at g
    exact (F'.mem x).2 (by (iterate 12 right); exact g)

theorem hasCode_97 {env : Env} {r : RawInv} {fs : List Fnd} (hf : check env r = .ok fs) :
    HasCode fs (.E 97) ↔ ∃ a m, (a, m) ∈ r.inv.fixity ∧ ¬ ((mkeys m).map toLower).Nodup := by
  have F := check_findings hf
  constructor
  · rintro ⟨x, hx, hc⟩
    rcases F.tagged hx with h | h | h | h | h | h | h | h | h | h | h | h | h
    all_goals
      obtain ⟨h1, h2⟩ := h
      rw [hc] at h1
      first
        | (simp at h1; done)
        | skip
    obtain ⟨a, ha, hxa⟩ := h2
    refine ⟨a.1, a.2, ha, ?_⟩
    intro hnd
    have := (fixityDigestFnd_nil_iff (alg := a.1) (l := mkeys a.2) List.Pairwise.nil).2 ⟨hnd, by simp⟩
    rw [this] at hxa; simp at hxa
  · rintro ⟨a, m, ha, hnd⟩
    have hne : fixityDigestFnd a [] (mkeys m) ≠ [] := by
      intro he
      exact hnd ((fixityDigestFnd_nil_iff List.Pairwise.nil).1 he).1
    obtain ⟨x, hx⟩ := List.exists_mem_of_ne_nil _ hne
    exact ⟨x, (F.mem x).2 (by (iterate 10 right); exact Or.inl ⟨_, ha, hx⟩), fixityDigestFnd_codes hx⟩

/-- **C44 for uniform version names.** Validating the same inventory in two map orders yields the same
findings, except that of fixity digests differing only in letter case either may be the one named (E097); in
particular the same codes.  Missing: version names of mixed padding (see `C44_full_fails`). -/
theorem C44_findings_order_independent_partial {env : Env} {r r' : RawInv} (h : Reordered r r') {p : Nat}
    (hu : Uniform p (mkeys r.inv.versions)) (hn : (mkeys r.inv.versions).Nodup)
    (hm : (mkeys r.inv.manifest).Nodup) {fs : List Fnd} (hf : check env r = .ok fs) :
    ∃ fs', check env r' = .ok fs' ∧ (∀ x, x.code ≠ .E 97 → (x ∈ fs ↔ x ∈ fs')) ∧
      ∀ c, HasCode fs c ↔ HasCode fs' c := by
  obtain ⟨fs', hf'⟩ := check_ok_of_reordered h ⟨fs, hf⟩
  have hu' : Uniform p (mkeys r'.inv.versions) := fun k hk => hu k (h.versionKeys.mem_iff.2 hk)
  have hn' : (mkeys r'.inv.versions).Nodup := h.versionKeys.nodup_iff.1 hn
  have hm' : (mkeys r'.inv.manifest).Nodup := (h.manifest.map _).nodup_iff.1 hm
  have hx : ∀ x, x.code ≠ .E 97 → (x ∈ fs ↔ x ∈ fs') := fun x hc =>
    ⟨fun hx => mem_findings_reordered h hu hn hm hf hf' hx hc,
     fun hx => mem_findings_reordered h.symm hu' hn' hm' hf' hf hx hc⟩
  refine ⟨fs', hf', hx, ?_⟩
  intro c
  by_cases hc : c = .E 97
  · subst hc
    rw [hasCode_97 hf, hasCode_97 hf']
    constructor
    · rintro ⟨a, m, ha, hnd⟩
      obtain ⟨m', hm', hp⟩ := h.fixity a m ha
      exact ⟨a, m', hm', fun hc => hnd (((hp.map _).map _).nodup_iff.2 hc)⟩
    · rintro ⟨a, m, ha, hnd⟩
      obtain ⟨m', hm', hp⟩ := h.fixity' a m ha
      exact ⟨a, m', hm', fun hc => hnd (((hp.map _).map _).nodup_iff.1 hc)⟩
  · constructor
    · rintro ⟨x, hxf, rfl⟩; exact ⟨x, (hx x hc).1 hxf, rfl⟩
    · rintro ⟨x, hxf, rfl⟩; exact ⟨x, (hx x hc).2 hxf, rfl⟩

/-- reordering all maps of the two-version object -/
def exRaw' : RawInv :=
  { inv := { exInv with manifest := exInv.manifest.reverse,
                        versions := (exInv.versions.map (fun e => (e.1, { e.2 with state := e.2.state.reverse }))).reverse },
    vmeta := [] }

theorem exRaw_reordered : Reordered exRaw exRaw' where
  id := rfl
  spec := rfl
  digestAlg := rfl
  head := rfl
  contentDirectory := rfl
  headNil := rfl
  headErr := rfl
  manifestNil := rfl
  versionsNil := rfl
  vm := fun _ => rfl
  manifest := (List.reverse_perm _).symm
  versionKeys := by
    have : mkeys exRaw'.inv.versions = (mkeys exRaw.inv.versions).reverse := by decide
    rw [this]; exact (List.reverse_perm _).symm
  versions := fun k v hv =>
    ⟨{ v with state := v.state.reverse }, List.mem_reverse.2 (List.mem_map.2 ⟨_, hv, rfl⟩),
      rfl, rfl, rfl, rfl, (List.reverse_perm _).symm⟩
  versions' := fun k w hw => by
    obtain ⟨e, he, heq⟩ := List.mem_map.1 (List.mem_reverse.1 hw)
    cases heq
    exact ⟨e.2, he, rfl, rfl, rfl, rfl, (List.reverse_perm _).symm⟩
  fixity := fun a m hm => by simp [exRaw, exInv] at hm
  fixity' := fun a m hm => by simp [exRaw', exInv] at hm
  fixityKeys := List.Perm.refl _

example : ∃ fs fs', check exEnv exRaw = .ok fs ∧ check exEnv exRaw' = .ok fs' ∧ ∀ c, HasCode fs c ↔ HasCode fs' c := by
  have hs : (check exEnv exRaw).isOk = true := by decide
  cases h : check exEnv exRaw with
  | error e => rw [h] at hs; cases hs
  | ok fs =>
    obtain ⟨fs', h1, _, h2⟩ := C44_findings_order_independent_partial exRaw_reordered exInv_uniform (by decide)
      (by decide) h
    exact ⟨fs, fs', rfl, h1, h2⟩

/-- an object with versions `v1` and `v02`, in either order -/
def exMixed (a b : Str) : RawInv :=
  { inv := { exInv with versions := [(a, exVer ["a".toList]), (b, exVer ["a".toList])], head := "v02".toList,
                        manifest := [("d1".toList, ["v1/content/a".toList])] }, vmeta := [] }

/-- **C44 fails** for versions `v1` and `v02`: E011 is reported in one order only. -/
theorem C44_full_fails : ¬ C44_full := by
  intro hf
  have hs : (check exEnv (exMixed "v02".toList "v1".toList)).toOption.any
    (fun fs => fs.any (fun x => decide (x.code = .E 11))) = true := by decide
  have hs' : (check exEnv (exMixed "v1".toList "v02".toList)).toOption.any
    (fun fs => fs.all (fun x => decide (x.code ≠ .E 11))) = true := by decide
  have hre : Reordered (exMixed "v02".toList "v1".toList) (exMixed "v1".toList "v02".toList) := by
    refine ⟨rfl, rfl, rfl, rfl, rfl, rfl, rfl, rfl, rfl, fun _ => rfl, List.Perm.refl _, List.Perm.swap _ _ _, ?_, ?_,
      ?_, ?_, List.Perm.refl _⟩
    · intro k v hv
      refine ⟨v, ?_, rfl, rfl, rfl, rfl, List.Perm.refl _⟩
      exact (List.Perm.swap _ _ _).mem_iff.1 hv
    · intro k v hv
      refine ⟨v, ?_, rfl, rfl, rfl, rfl, List.Perm.refl _⟩
      exact (List.Perm.swap _ _ _).mem_iff.1 hv
    · intro a m hm; simp [exMixed, exInv] at hm
    · intro a m hm; simp [exMixed, exInv] at hm
  cases h : check exEnv (exMixed "v02".toList "v1".toList) with
  | error e => rw [h] at hs; cases hs
  | ok fs =>
    obtain ⟨fs', h', hx⟩ := hf _ _ _ hre (by decide) (by decide) fs h
    rw [h] at hs
    rw [h'] at hs'
    simp only [Except.toOption, Option.any_some, List.any_eq_true, decide_eq_true_eq, List.all_eq_true] at hs hs'
    obtain ⟨x, hxf, hc⟩ := hs
    exact hs' x ((hx x).1 hxf) hc

end Gocfl
