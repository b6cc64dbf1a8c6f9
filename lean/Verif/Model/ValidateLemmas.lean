import Verif.Model.Validate
import Verif.Model.VersionNames
import Verif.Props.Versions

/-! # Lemmas about the validation model -/

namespace Gocfl

/-! ## `collect` -/

theorem collect_ok_iff {α : Type} {f : α → Res (List Fnd)} {l : List α} :
    (∃ fs, collect f l = .ok fs) ↔ ∀ a ∈ l, ∃ fs, f a = .ok fs := by
  induction l with
  | nil => simp [collect]
  | cons a l ih =>
    simp only [collect, res_bind_eq_ok, List.mem_cons, forall_eq_or_imp]
    constructor
    · rintro ⟨fs, x, hx, y, hy, _⟩
      exact ⟨⟨x, hx⟩, ih.1 ⟨y, hy⟩⟩
    · rintro ⟨⟨x, hx⟩, h⟩
      obtain ⟨y, hy⟩ := ih.2 h
      exact ⟨_, x, hx, y, hy, rfl⟩

theorem mem_collect {α : Type} {f : α → Res (List Fnd)} {l : List α} {fs : List Fnd}
    (h : collect f l = .ok fs) (x : Fnd) : x ∈ fs ↔ ∃ a ∈ l, ∃ gs, f a = .ok gs ∧ x ∈ gs := by
  induction l generalizing fs with
  | nil => cases h; simp
  | cons a l ih =>
    simp only [collect, res_bind_eq_ok] at h
    obtain ⟨p, hp, q, hq, he⟩ := h
    cases he
    rw [List.mem_append, ih hq]
    constructor
    · rintro (h | ⟨b, hb, gs, h1, h2⟩)
      · exact ⟨a, by simp, p, hp, h⟩
      · exact ⟨b, by simp [hb], gs, h1, h2⟩
    · rintro ⟨b, hb, gs, h1, h2⟩
      rcases List.mem_cons.1 hb with rfl | hb
      · rw [hp] at h1; cases h1; exact Or.inl h2
      · exact Or.inr ⟨b, hb, gs, h1, h2⟩

theorem collect_error_iff {α : Type} {f : α → Res (List Fnd)} {l : List α} :
    (∃ e, collect f l = .error e) ↔ ∃ a ∈ l, ∃ e, f a = .error e := by
  have h := @collect_ok_iff α f l
  constructor
  · rintro ⟨e, he⟩
    by_contra hc
    have : ∀ a ∈ l, ∃ fs, f a = .ok fs := by
      intro a ha
      cases hf : f a with
      | ok fs => exact ⟨fs, rfl⟩
      | error e => exact absurd ⟨a, ha, e, hf⟩ hc
    obtain ⟨fs, hfs⟩ := h.2 this
    rw [hfs] at he; cases he
  · rintro ⟨a, ha, e, he⟩
    cases hc : collect f l with
    | error e => exact ⟨e, rfl⟩
    | ok fs =>
      obtain ⟨g, hg⟩ := h.1 ⟨fs, hc⟩ a ha
      rw [hg] at he; cases he

/-! ## Codes of the sections -/

theorem checkPath_ok {c1 c2 : Nat} {p : Str} {fs : List Fnd} (h : checkPath c1 c2 p = .ok fs) :
    p ≠ [] ∧ fs = (if p.head? = some '/' ∨ p.getLast? = some '/' then [err c1 [p]] else []) ++
      ((splitOn '/' (dropSlash p)).filter badElement).map (fun _ => err c2 [p]) := by
  unfold checkPath at h
  by_cases hp : p = []
  · rw [if_pos hp] at h; cases h
  · rw [if_neg hp] at h; cases h; exact ⟨hp, rfl⟩

theorem checkPath_codes {c1 c2 : Nat} {p : Str} {fs : List Fnd} (h : checkPath c1 c2 p = .ok fs) {x : Fnd}
    (hx : x ∈ fs) : x.code = .E c1 ∨ x.code = .E c2 := by
  obtain ⟨_, rfl⟩ := checkPath_ok h
  rcases List.mem_append.1 hx with hx | hx
  · split at hx
    · rw [List.mem_singleton] at hx; subst hx; exact Or.inl rfl
    · simp at hx
  · obtain ⟨_, _, rfl⟩ := List.mem_map.1 hx; exact Or.inr rfl

theorem padStep_codes {pad : Int} {ver : Str} {x : Fnd} (hx : x ∈ (padStep pad ver).2) :
    x.code ∈ [Code.E 11, .E 12, .E 13, .E 104] := by
  unfold padStep at hx
  split at hx
  · split at hx
    · simp at hx
    · split at hx
      · simp only [List.mem_cons, List.not_mem_nil, or_false] at hx
        rcases hx with rfl | rfl <;> simp [err]
      · simp at hx
  · split at hx
    · split at hx
      · simp at hx
      · split at hx
        · simp only [List.mem_cons, List.not_mem_nil, or_false] at hx
          rcases hx with rfl | rfl | rfl <;> simp [err]
        · simp at hx
    · simp only [List.mem_cons, List.not_mem_nil, or_false] at hx
      subst hx; simp [err]

theorem padFold_codes {l : List Str} {pad : Int} {x : Fnd} (hx : x ∈ (padFold pad l).2) :
    x.code ∈ [Code.E 11, .E 12, .E 13, .E 104] := by
  induction l generalizing pad with
  | nil => simp [padFold] at hx
  | cons v l ih =>
    rw [padFold] at hx
    cases hv : verNumber v with
    | none => rw [hv] at hx; exact ih hx
    | some n =>
      rw [hv] at hx
      simp only at hx
      rcases List.mem_append.1 hx with hx | hx
      · exact padStep_codes hx
      · exact ih hx

theorem metaFnd_codes {env : Env} {m : VMeta} {ver : Str} {v : Version} {fs : List Fnd}
    (h : metaFnd env m ver v = .ok fs) {x : Fnd} (hx : x ∈ fs) :
    x.code ∈ [Code.E 49, .E 54, .W 8, .W 9, .E 94] ∨ (m.stateErr = true ∧ x.code = .E 50) := by
  unfold metaFnd at h
  split at h
  · cases h
  · cases h
    simp only [List.mem_append] at hx
    rcases hx with (((((h | h) | h) | h) | h) | h) | h
    all_goals first
      | (split at h
         · simp only [List.mem_singleton] at h; subst h; simp_all [err, warn]
         · first
             | (simp at h; done)
             | (split at h
                · simp at h
                · simp only [List.mem_singleton] at h; subst h; simp_all [warn]))

theorem stateEntryFnd_ok {man : DMap} {ver : Str} {e : Str × List Str} {fs : List Fnd}
    (h : stateEntryFnd man ver e = .ok fs) :
    ∃ g, collect (checkPath 53 52) e.2 = .ok g ∧
      fs = (if (bsearch (sortStr (mkeys man)) e.1).2 then []
        else if (bsearch (sortStr ((mkeys man).map toLower)) (toLower e.1)).2 then [err 96 [ver, e.1]]
        else [err 50 [ver, e.1]]) ++ g := by
  unfold stateEntryFnd at h
  simp only [res_bind_eq_ok] at h
  obtain ⟨g, hg, he⟩ := h
  cases he
  exact ⟨g, hg, rfl⟩

/-- The findings about one digest of a version: a missing digest, or its paths. -/
theorem mem_stateEntryFnd {man : DMap} {ver : Str} {e : Str × List Str} {fs : List Fnd}
    (h : stateEntryFnd man ver e = .ok fs) (x : Fnd) :
    x ∈ fs ↔ (e.1 ∉ mkeys man ∧ (x = err 96 [ver, e.1] ∧ toLower e.1 ∈ (mkeys man).map toLower ∨
      x = err 50 [ver, e.1] ∧ toLower e.1 ∉ (mkeys man).map toLower)) ∨
      ∃ p ∈ e.2, ∃ g, checkPath 53 52 p = .ok g ∧ x ∈ g := by
  obtain ⟨g, hg, rfl⟩ := stateEntryFnd_ok h
  rw [List.mem_append, mem_collect hg]
  apply or_congr_left
  have h1 := bsearch_found_iff (sortStr (mkeys man)) e.1 (sortStr_sorted _)
  have h2 := bsearch_found_iff (sortStr ((mkeys man).map toLower)) (toLower e.1) (sortStr_sorted _)
  rw [mem_sortStr] at h1 h2
  by_cases k1 : e.1 ∈ mkeys man
  · rw [if_pos (h1.2 k1)]; simp [k1]
  · rw [if_neg (fun h => k1 (h1.1 h))]
    by_cases k2 : toLower e.1 ∈ (mkeys man).map toLower
    · rw [if_pos (h2.2 k2)]
      simp only [k1, k2, not_true_eq_false, and_false, or_false, and_true, not_false_eq_true, true_and]
      simp
    · rw [if_neg (fun h => k2 (h2.1 h))]
      simp only [k1, k2, and_false, false_or, and_true, not_false_eq_true, true_and]
      simp

theorem stateEntryFnd_codes {man : DMap} {ver : Str} {e : Str × List Str} {fs : List Fnd}
    (h : stateEntryFnd man ver e = .ok fs) {x : Fnd} (hx : x ∈ fs) :
    x.code ∈ [Code.E 96, .E 50, .E 53, .E 52] := by
  rcases (mem_stateEntryFnd h x).1 hx with ⟨_, ⟨rfl, _⟩ | ⟨rfl, _⟩⟩ | ⟨p, _, g, hg, hxg⟩
  · simp [err]
  · simp [err]
  · rcases checkPath_codes hg hxg with h | h <;> simp [h]

theorem versionFnd_ok {env : Env} {r : RawInv} {e : Str × Version} {fs : List Fnd} {n : Int}
    (hn : verNumber e.1 = some n) (h : versionFnd env r e = .ok fs) :
    ∃ a b, metaFnd env (r.vm e.1) e.1 e.2 = .ok a ∧
      collect (stateEntryFnd r.inv.manifest e.1) e.2.state = .ok b ∧ fs = a ++ b := by
  unfold versionFnd at h
  rw [hn] at h
  simp only [res_bind_eq_ok] at h
  obtain ⟨a, ha, b, hb, he⟩ := h
  cases he
  exact ⟨a, b, ha, hb, rfl⟩

theorem versionFnd_codes {env : Env} {r : RawInv} {e : Str × Version} {fs : List Fnd}
    (h : versionFnd env r e = .ok fs) {x : Fnd} (hx : x ∈ fs) :
    x.code ∈ [Code.E 49, .E 54, .W 8, .W 9, .E 94, .E 50, .E 96, .E 53, .E 52] := by
  cases hn : verNumber e.1 with
  | none => unfold versionFnd at h; rw [hn] at h; cases h; simp at hx
  | some n =>
    obtain ⟨a, b, ha, hb, rfl⟩ := versionFnd_ok hn h
    rcases List.mem_append.1 hx with hx | hx
    · rcases metaFnd_codes ha hx with h | ⟨_, h⟩
      · simp only [List.mem_cons, List.not_mem_nil, or_false] at h ⊢; tauto
      · simp [h]
    · obtain ⟨s, _, g, hg, hxg⟩ := (mem_collect hb x).1 hx
      have := stateEntryFnd_codes hg hxg
      simp only [List.mem_cons, List.not_mem_nil, or_false] at this ⊢; tauto

theorem sequenceFnd_codes {nums : List Int} {x : Fnd} (hx : x ∈ sequenceFnd nums) : x.code = .E 10 := by
  unfold sequenceFnd at hx
  split at hx
  · rw [List.mem_singleton] at hx; subst hx; rfl
  · simp at hx

theorem headFnd_codes {inv : Inv} {x : Fnd} (hx : x ∈ headFnd inv) : x.code = .E 40 := by
  unfold headFnd at hx
  rcases List.mem_append.1 hx with hx | hx
  · split at hx
    · rw [List.mem_singleton] at hx; subst hx; rfl
    · simp at hx
  · split at hx
    · rw [List.mem_singleton] at hx; subst hx; rfl
    · simp at hx

theorem logicalFnd_codes {s : DMap} {x : Fnd} (hx : x ∈ logicalFnd s) : x.code = .E 95 := by
  unfold logicalFnd at hx
  obtain ⟨_, _, rfl⟩ := List.mem_map.1 hx; rfl

theorem logicalVersionFnd_codes {r : RawInv} {e : Str × Version} {fs : List Fnd}
    (h : logicalVersionFnd r e = .ok fs) : fs = logicalFnd e.2.state := by
  unfold logicalVersionFnd at h
  split at h
  · cases h
  · cases h; rfl

theorem manifestDigestFnd_codes {used seen l : List Str} {x : Fnd} (hx : x ∈ manifestDigestFnd used seen l) :
    x.code = .E 96 ∨ x.code = .E 107 := by
  induction l generalizing seen with
  | nil => simp [manifestDigestFnd] at hx
  | cons d l ih =>
    rw [manifestDigestFnd] at hx
    split at hx
    · rcases List.mem_cons.1 hx with rfl | hx
      · exact Or.inl rfl
      · exact ih hx
    · rcases List.mem_append.1 hx with hx | hx
      · split at hx
        · rw [List.mem_singleton] at hx; subst hx; exact Or.inr rfl
        · simp at hx
      · exact ih hx

/-- In a map (no key twice) only unused digests are reported. -/
theorem mem_manifestDigestFnd {used : List Str} {l : List Str} (hl : l.Nodup) {seen : List Str}
    (hs : ∀ d ∈ l, d ∉ seen) (x : Fnd) :
    x ∈ manifestDigestFnd used seen l ↔ ∃ d ∈ l, d ∉ used ∧ x = err 107 [d] := by
  induction l generalizing seen with
  | nil => simp [manifestDigestFnd]
  | cons d l ih =>
    rw [List.nodup_cons] at hl
    rw [manifestDigestFnd, if_neg (hs d (by simp)), List.mem_append,
      ih hl.2 (by
        intro e he hc
        rcases List.mem_cons.1 hc with rfl | hc
        · exact hl.1 he
        · exact hs e (by simp [he]) hc)]
    constructor
    · rintro (h | ⟨e, he, h1, h2⟩)
      · split at h
        · rename_i hu
          rw [List.mem_singleton] at h
          exact ⟨d, by simp, hu, h⟩
        · simp at h
      · exact ⟨e, by simp [he], h1, h2⟩
    · rintro ⟨e, he, h1, h2⟩
      rcases List.mem_cons.1 he with rfl | he
      · left; rw [if_pos h1]; simp [h2]
      · exact Or.inr ⟨e, he, h1, h2⟩

theorem contentFnd_codes {ps : List Str} {x : Fnd} (hx : x ∈ contentFnd ps) : x.code = .E 101 := by
  unfold contentFnd at hx
  obtain ⟨_, _, rfl⟩ := List.mem_map.1 hx; rfl

theorem checkManifest_ok {inv : Inv} {fs : List Fnd} (h : checkManifest inv = .ok fs) :
    ∃ pf, collect (checkPath 100 99) (inv.manifest.flatMap (·.2)) = .ok pf ∧
      fs = manifestDigestFnd (usedDigests inv) [] (mkeys inv.manifest) ++ pf ++
        contentFnd (inv.manifest.flatMap (·.2)) := by
  unfold checkManifest at h
  simp only [res_bind_eq_ok] at h
  obtain ⟨pf, h1, h2⟩ := h
  cases h2
  exact ⟨pf, h1, rfl⟩

theorem checkManifest_codes {inv : Inv} {fs : List Fnd} (h : checkManifest inv = .ok fs) {x : Fnd}
    (hx : x ∈ fs) : x.code ∈ [Code.E 96, .E 107, .E 100, .E 99, .E 101] := by
  obtain ⟨pf, h1, rfl⟩ := checkManifest_ok h
  simp only [List.mem_append] at hx
  rcases hx with (hx | hx) | hx
  · rcases manifestDigestFnd_codes hx with h | h <;> simp [h]
  · obtain ⟨p, _, g, hg, hxg⟩ := (mem_collect h1 x).1 hx
    rcases checkPath_codes hg hxg with h | h <;> simp [h]
  · simp [contentFnd_codes hx]

theorem fixityDigestFnd_codes {alg : Str} {seen l : List Str} {x : Fnd} (hx : x ∈ fixityDigestFnd alg seen l) :
    x.code = .E 97 := by
  induction l generalizing seen with
  | nil => simp [fixityDigestFnd] at hx
  | cons d l ih =>
    rw [fixityDigestFnd] at hx
    split at hx
    · rcases List.mem_cons.1 hx with rfl | hx
      · rfl
      · exact ih hx
    · exact ih hx

/-- one algorithm of the fixity block, as in `checkFixity` -/
def fixityAlgFnd (e : Str × DMap) : Res (List Fnd) :=
  collect (checkPath 100 99) (e.2.flatMap (·.2)) >>= fun pf =>
    .ok (fixityDigestFnd e.1 [] (mkeys e.2) ++ pf)

theorem checkFixity_eq (inv : Inv) : checkFixity inv = collect fixityAlgFnd inv.fixity := rfl

theorem fixityAlgFnd_ok {e : Str × DMap} {fs : List Fnd} (h : fixityAlgFnd e = .ok fs) :
    ∃ pf, collect (checkPath 100 99) (e.2.flatMap (·.2)) = .ok pf ∧
      fs = fixityDigestFnd e.1 [] (mkeys e.2) ++ pf := by
  unfold fixityAlgFnd at h
  simp only [res_bind_eq_ok] at h
  obtain ⟨pf, h1, h2⟩ := h
  cases h2
  exact ⟨pf, h1, rfl⟩

theorem checkFixity_codes {inv : Inv} {fs : List Fnd} (h : checkFixity inv = .ok fs) {x : Fnd}
    (hx : x ∈ fs) : x.code ∈ [Code.E 97, .E 100, .E 99] := by
  rw [checkFixity_eq] at h
  obtain ⟨e, _, g, hg, hxg⟩ := (mem_collect h x).1 hx
  obtain ⟨pf, h1, rfl⟩ := fixityAlgFnd_ok hg
  rcases List.mem_append.1 hxg with hx | hx
  · simp [fixityDigestFnd_codes hx]
  · obtain ⟨p, _, g, hg, hxg⟩ := (mem_collect h1 x).1 hx
    rcases checkPath_codes hg hxg with h | h <;> simp [h]

theorem checkScalars_codes {env : Env} {r : RawInv} {x : Fnd} (hx : x ∈ checkScalars env r) :
    x.code ∈ [Code.E 36, .W 5, .E 25, .W 4, .E 17] ∨ (x.code = .E 40 ∧ r.headErr = true) := by
  simp only [checkScalars, List.mem_append] at hx
  rcases hx with (((((h | h) | h) | h) | h) | h) | h
  all_goals
    split at h
    · simp only [List.mem_singleton] at h; subst h; simp_all [err, warn]
    · first
        | (simp at h; done)
        | (split at h
           · simp only [List.mem_singleton] at h; subst h; simp_all [err]
           · simp at h)

/-! ## The whole check -/

theorem checkVersions_ok {env : Env} {r : RawInv} {fs : List Fnd} (h : checkVersions env r = .ok fs) :
    r.headNil = false ∧ ∃ vf lf, collect (versionFnd env r) r.inv.versions = .ok vf ∧
      collect (logicalVersionFnd r) r.inv.versions = .ok lf ∧
      fs = (if r.inv.versions = [] then [err 8 []] else []) ++ (padFold (-1) (mkeys r.inv.versions)).2 ++
        vf ++ sequenceFnd (versionNumbers r.inv) ++
        (if 0 < computedPadding r.inv then [warn 1 [fmtInt (computedPadding r.inv)]] else []) ++
        headFnd r.inv ++ lf := by
  unfold checkVersions at h
  simp only [res_bind_eq_ok] at h
  obtain ⟨vf, h1, h2⟩ := h
  split at h2
  · cases h2
  · rename_i hn
    simp only [res_bind_eq_ok] at h2
    obtain ⟨lf, h3, h4⟩ := h2
    cases h4
    exact ⟨by simpa using hn, vf, lf, h1, h3, rfl⟩

/-- What the findings of a validation are. -/
structure Findings (env : Env) (r : RawInv) (fs : List Fnd) : Prop where
  versions_ok : ∀ e ∈ r.inv.versions, ∃ g, versionFnd env r e = .ok g
  manifest_ok : ∀ p ∈ r.inv.manifest.flatMap (·.2), ∃ g, checkPath 100 99 p = .ok g
  fixity_ok : ∀ a ∈ r.inv.fixity, ∀ p ∈ a.2.flatMap (·.2), ∃ g, checkPath 100 99 p = .ok g
  mem : ∀ x, x ∈ fs ↔
    (r.inv.versions = [] ∧ x = err 8 []) ∨ x ∈ (padFold (-1) (mkeys r.inv.versions)).2 ∨
    (∃ e ∈ r.inv.versions, ∃ g, versionFnd env r e = .ok g ∧ x ∈ g) ∨
    x ∈ sequenceFnd (versionNumbers r.inv) ∨
    (0 < computedPadding r.inv ∧ x = warn 1 [fmtInt (computedPadding r.inv)]) ∨
    x ∈ headFnd r.inv ∨ (∃ e ∈ r.inv.versions, x ∈ logicalFnd e.2.state) ∨
    x ∈ manifestDigestFnd (usedDigests r.inv) [] (mkeys r.inv.manifest) ∨
    (∃ p ∈ r.inv.manifest.flatMap (·.2), ∃ g, checkPath 100 99 p = .ok g ∧ x ∈ g) ∨
    x ∈ contentFnd (r.inv.manifest.flatMap (·.2)) ∨
    (∃ a ∈ r.inv.fixity, x ∈ fixityDigestFnd a.1 [] (mkeys a.2)) ∨
    (∃ a ∈ r.inv.fixity, ∃ p ∈ a.2.flatMap (·.2), ∃ g, checkPath 100 99 p = .ok g ∧ x ∈ g) ∨
    x ∈ checkScalars env r

theorem check_findings {env : Env} {r : RawInv} {fs : List Fnd} (h : check env r = .ok fs) :
    Findings env r fs := by
  unfold check at h
  simp only [res_bind_eq_ok] at h
  obtain ⟨a, ha, b, hb, c, hc, he⟩ := h
  cases he
  obtain ⟨_, vf, lf, hvf, hlf, rfl⟩ := checkVersions_ok ha
  obtain ⟨pf, hpf, rfl⟩ := checkManifest_ok hb
  rw [checkFixity_eq] at hc
  have hfix : ∀ a ∈ r.inv.fixity, ∃ pf, collect (checkPath 100 99) (a.2.flatMap (·.2)) = .ok pf ∧
      fixityAlgFnd a = .ok (fixityDigestFnd a.1 [] (mkeys a.2) ++ pf) := by
    intro a ha
    obtain ⟨g, hg⟩ := collect_ok_iff.1 ⟨c, hc⟩ a ha
    obtain ⟨pf, h1, rfl⟩ := fixityAlgFnd_ok hg
    exact ⟨pf, h1, hg⟩
  refine ⟨collect_ok_iff.1 ⟨vf, hvf⟩, collect_ok_iff.1 ⟨pf, hpf⟩, ?_, ?_⟩
  · intro a ha
    obtain ⟨pf, h1, _⟩ := hfix a ha
    exact collect_ok_iff.1 ⟨pf, h1⟩
  · intro x
    have e1 : x ∈ (if r.inv.versions = [] then [err 8 []] else []) ↔ r.inv.versions = [] ∧ x = err 8 [] := by
      split <;> simp_all
    have e2 : x ∈ (if 0 < computedPadding r.inv then [warn 1 [fmtInt (computedPadding r.inv)]] else []) ↔
        0 < computedPadding r.inv ∧ x = warn 1 [fmtInt (computedPadding r.inv)] := by
      split <;> simp_all
    have e3 : x ∈ lf ↔ ∃ e ∈ r.inv.versions, x ∈ logicalFnd e.2.state := by
      rw [mem_collect hlf]
      constructor
      · rintro ⟨e, he, g, h1, h2⟩
        rw [logicalVersionFnd_codes h1] at h2; exact ⟨e, he, h2⟩
      · rintro ⟨e, he, hx⟩
        obtain ⟨g, hg⟩ := collect_ok_iff.1 ⟨lf, hlf⟩ e he
        exact ⟨e, he, g, hg, by rw [logicalVersionFnd_codes hg]; exact hx⟩
    have e4 : x ∈ c ↔ (∃ a ∈ r.inv.fixity, x ∈ fixityDigestFnd a.1 [] (mkeys a.2)) ∨
        ∃ a ∈ r.inv.fixity, ∃ p ∈ a.2.flatMap (·.2), ∃ g, checkPath 100 99 p = .ok g ∧ x ∈ g := by
      rw [mem_collect hc]
      constructor
      · rintro ⟨a, ha, g, hg, hx⟩
        obtain ⟨pf, h1, h2⟩ := hfix a ha
        rw [h2] at hg; cases hg
        rcases List.mem_append.1 hx with hx | hx
        · exact Or.inl ⟨a, ha, hx⟩
        · exact Or.inr ⟨a, ha, (mem_collect h1 x).1 hx⟩
      · rintro (⟨a, ha, hx⟩ | ⟨a, ha, hx⟩)
        · obtain ⟨pf, h1, h2⟩ := hfix a ha
          exact ⟨a, ha, _, h2, List.mem_append.2 (Or.inl hx)⟩
        · obtain ⟨pf, h1, h2⟩ := hfix a ha
          exact ⟨a, ha, _, h2, List.mem_append.2 (Or.inr ((mem_collect h1 x).2 hx))⟩
    simp only [List.mem_append, e1, e2, e3, e4, mem_collect hvf, mem_collect hpf, or_assoc]

/-- A finding together with the section it comes from and the codes of that section. -/
theorem Findings.tagged {env : Env} {r : RawInv} {fs : List Fnd} (F : Findings env r fs) {x : Fnd}
    (hx : x ∈ fs) :
    (x.code ∈ [Code.E 8] ∧ r.inv.versions = []) ∨
    (x.code ∈ [Code.E 11, .E 12, .E 13, .E 104] ∧ x ∈ (padFold (-1) (mkeys r.inv.versions)).2) ∨
    (x.code ∈ [Code.E 49, .E 54, .W 8, .W 9, .E 94, .E 50, .E 96, .E 53, .E 52] ∧
      ∃ e ∈ r.inv.versions, ∃ g, versionFnd env r e = .ok g ∧ x ∈ g) ∨
    (x.code ∈ [Code.E 10] ∧ x ∈ sequenceFnd (versionNumbers r.inv)) ∨
    (x.code ∈ [Code.W 1] ∧ 0 < computedPadding r.inv) ∨
    (x.code ∈ [Code.E 40] ∧ x ∈ headFnd r.inv) ∨
    (x.code ∈ [Code.E 95] ∧ ∃ e ∈ r.inv.versions, x ∈ logicalFnd e.2.state) ∨
    (x.code ∈ [Code.E 96, .E 107] ∧ x ∈ manifestDigestFnd (usedDigests r.inv) [] (mkeys r.inv.manifest)) ∨
    (x.code ∈ [Code.E 100, .E 99] ∧
      ∃ p ∈ r.inv.manifest.flatMap (·.2), ∃ g, checkPath 100 99 p = .ok g ∧ x ∈ g) ∨
    (x.code ∈ [Code.E 101] ∧ x ∈ contentFnd (r.inv.manifest.flatMap (·.2))) ∨
    (x.code ∈ [Code.E 97] ∧ ∃ a ∈ r.inv.fixity, x ∈ fixityDigestFnd a.1 [] (mkeys a.2)) ∨
    (x.code ∈ [Code.E 100, .E 99] ∧
      ∃ a ∈ r.inv.fixity, ∃ p ∈ a.2.flatMap (·.2), ∃ g, checkPath 100 99 p = .ok g ∧ x ∈ g) ∨
    ((x.code ∈ [Code.E 36, .W 5, .E 25, .W 4, .E 17] ∨ (x.code = .E 40 ∧ r.headErr = true)) ∧
      x ∈ checkScalars env r) := by
  rcases (F.mem x).1 hx with h | h | h | h | h | h | h | h | h | h | h | h | h
  · refine Or.inl ⟨?_, h.1⟩; rw [h.2]; simp [err]
  · exact Or.inr (Or.inl ⟨padFold_codes h, h⟩)
  · refine Or.inr (Or.inr (Or.inl ⟨?_, h⟩))
    obtain ⟨e, _, g, hg, hxg⟩ := h; exact versionFnd_codes hg hxg
  · refine Or.inr (Or.inr (Or.inr (Or.inl ⟨?_, h⟩))); simp [sequenceFnd_codes h]
  · refine Or.inr (Or.inr (Or.inr (Or.inr (Or.inl ⟨?_, h.1⟩)))); rw [h.2]; simp [warn]
  · refine Or.inr (Or.inr (Or.inr (Or.inr (Or.inr (Or.inl ⟨?_, h⟩))))); simp [headFnd_codes h]
  · refine Or.inr (Or.inr (Or.inr (Or.inr (Or.inr (Or.inr (Or.inl ⟨?_, h⟩))))))
    obtain ⟨e, _, he⟩ := h; simp [logicalFnd_codes he]
  · refine Or.inr (Or.inr (Or.inr (Or.inr (Or.inr (Or.inr (Or.inr (Or.inl ⟨?_, h⟩)))))))
    rcases manifestDigestFnd_codes h with h | h <;> simp [h]
  · refine Or.inr (Or.inr (Or.inr (Or.inr (Or.inr (Or.inr (Or.inr (Or.inr (Or.inl ⟨?_, h⟩))))))))
    obtain ⟨p, _, g, hg, hxg⟩ := h
    rcases checkPath_codes hg hxg with h | h <;> simp [h]
  · refine Or.inr (Or.inr (Or.inr (Or.inr (Or.inr (Or.inr (Or.inr (Or.inr (Or.inr (Or.inl ⟨?_, h⟩)))))))))
    simp [contentFnd_codes h]
  · refine Or.inr (Or.inr (Or.inr (Or.inr (Or.inr (Or.inr (Or.inr (Or.inr (Or.inr (Or.inr (Or.inl ⟨?_, h⟩))))))))))
    obtain ⟨a, _, ha⟩ := h; simp [fixityDigestFnd_codes ha]
  · refine Or.inr (Or.inr (Or.inr (Or.inr (Or.inr (Or.inr (Or.inr (Or.inr (Or.inr (Or.inr (Or.inr
      (Or.inl ⟨?_, h⟩)))))))))))
    obtain ⟨a, _, p, _, g, hg, hxg⟩ := h
    rcases checkPath_codes hg hxg with h | h <;> simp [h]
  · exact Or.inr (Or.inr (Or.inr (Or.inr (Or.inr (Or.inr (Or.inr (Or.inr (Or.inr (Or.inr (Or.inr
      (Or.inr ⟨checkScalars_codes h, h⟩)))))))))))

end Gocfl
