import Verif.Props.AcceptedNames

/-! # C183: which inventories validate -/

namespace Gocfl

/-- What validation asks of an inventory file. -/
structure CheckedInv (r : RawInv) : Prop where
  head : r.headNil = false ∧ r.headErr = false
  blocks : r.manifestNil = false ∧ r.versionsNil = false
  decoded : ∀ v ver, (v, ver) ∈ r.inv.versions → (r.vm v).isNil = false ∧ (r.vm v).createdNil = false ∧
    (r.vm v).createdErr = false ∧ (r.vm v).userErr = false ∧ (r.vm v).nameErr = false ∧ (r.vm v).addrErr = false ∧
    (r.vm v).messageErr = false ∧ (r.vm v).stateErr = false
  id : r.inv.id ≠ []
  spec : r.inv.spec ≠ []
  alg : r.inv.digestAlg = "sha512".toList
  contentDirectory : r.inv.contentDirectory ≠ ".".toList ∧ r.inv.contentDirectory ≠ "..".toList ∧ '/' ∉ r.inv.contentDirectory
  /-- versions 1 to N with one padding, the head is the last -/
  names : ∃ p N, 0 < N ∧ NamedUpTo p N (mkeys r.inv.versions) ∧ r.inv.head = verName (p : Int) (N : Int)
  manifestKeys : (mkeys r.inv.manifest).Nodup
  fixityKeys : ∀ a m, (a, m) ∈ r.inv.fixity → ((mkeys m).map toLower).Nodup
  /-- manifest and states speak of the same digests -/
  used : ∀ d m, (d, m) ∈ r.inv.manifest → ∃ v ver ps, (v, ver) ∈ r.inv.versions ∧ (d, ps) ∈ ver.state
  covered : ∀ v ver d ps, (v, ver) ∈ r.inv.versions → (d, ps) ∈ ver.state → ∃ m, (d, m) ∈ r.inv.manifest
  paths : AllPathsSafe r.inv
  /-- no logical path is the folder of the next one in the sorted list -/
  neighbours : ∀ v ver, (v, ver) ∈ r.inv.versions → ∀ l1 p q l2, sortStr (statePaths ver.state) = l1 ++ p :: q :: l2 → ¬ UnderDir p q

/-- The inventory file is accepted: the checks on loading end and find no error. -/
def InvAccepted (env : Env) (r : RawInv) : Prop := ∃ inv f, finalize env r = .ok (inv, f) ∧ NoErrors f

theorem manifestDigestFnd_noErrors {used l seen : List Str} :
    NoErrors (manifestDigestFnd used seen l) ↔ l.Nodup ∧ (∀ d ∈ l, d ∉ seen) ∧ ∀ d ∈ l, d ∈ used := by
  induction l generalizing seen with
  | nil => simp [manifestDigestFnd, NoErrors]
  | cons d l ih =>
    rw [manifestDigestFnd]
    by_cases hs : d ∈ seen
    · rw [if_pos hs]
      constructor
      · intro h; exact absurd (h _ List.mem_cons_self) (by simp [err])
      · rintro ⟨_, h, _⟩; exact absurd hs (h d List.mem_cons_self)
    · rw [if_neg hs, noErrors_append, ih]
      have h1 : NoErrors (if d ∉ used then [err 107 [d]] else []) ↔ d ∈ used := by
        by_cases hu : d ∈ used
        · simp [hu, NoErrors]
        · simp [hu, NoErrors, err]
      rw [h1, List.nodup_cons]
      simp only [List.mem_cons, not_or, forall_eq_or_imp]
      constructor
      · rintro ⟨h1, h2, h3, h4⟩
        exact ⟨⟨fun hd => (h3 d hd).1 rfl, h2⟩, ⟨hs, fun x hx => (h3 x hx).2⟩, h1, h4⟩
      · rintro ⟨⟨h1, h2⟩, ⟨h3, h4⟩, h5, h6⟩
        exact ⟨h5, h2, fun x hx => ⟨fun he => h1 (he ▸ hx), h4 x hx⟩, h6⟩

theorem fixityDigestFnd_noErrors {alg : Str} {l seen : List Str} (h : NoErrors (fixityDigestFnd alg seen l)) :
    fixityDigestFnd alg seen l = [] := by
  induction l generalizing seen with
  | nil => rfl
  | cons d l ih =>
    rw [fixityDigestFnd] at h ⊢
    split at h
    · exact absurd (h _ List.mem_cons_self) (by simp [err])
    · rename_i hb; rw [if_neg hb]; exact ih h

theorem checkPath_noErrors {c1 c2 : Nat} {p : Str} {g : List Fnd} (h : checkPath c1 c2 p = .ok g) (hn : NoErrors g) : SafePath p := by
  by_contra hc
  rcases (checkPath_reports h).2 hc with h | h
  · exact absurd (hn _ h) (by simp [err])
  · exact absurd (hn _ h) (by simp [err])

theorem noErrors_if {c : Prop} [Decidable c] {n : Nat} {a : List Str} : NoErrors (if c then [err n a] else []) ↔ ¬ c := by
  by_cases h : c <;> simp [h, NoErrors, err]

theorem metaFnd_noErrors {env : Env} {m : VMeta} {k : Str} {v : Version} :
    (∃ g, metaFnd env m k v = .ok g ∧ NoErrors g) ↔ m.createdNil = false ∧ m.createdErr = false ∧ m.userErr = false ∧ m.nameErr = false ∧
      m.addrErr = false ∧ m.messageErr = false ∧ m.stateErr = false := by
  unfold metaFnd
  have hw : NoErrors (if v.userAddress = [] then [warn 8 [k]] else if env.addrOk v.userAddress then [] else [warn 9 [v.userAddress, k]]) := by
    intro x hx
    split at hx
    · cases List.mem_singleton.1 hx; rfl
    · split at hx
      · simp at hx
      · cases List.mem_singleton.1 hx; rfl
  cases hc : m.createdNil with
  | true => simp
  | false =>
    simp only [Bool.false_eq_true, if_false, Except.ok.injEq, exists_eq_left', noErrors_append, noErrors_if, hw, Bool.not_eq_true]
    tauto

theorem names_uniform {p N : Nat} {l : List Str} (h : NamedUpTo p N l) : Uniform p l ∧ l.Nodup := by
  refine ⟨?_, ?_⟩
  · intro k hk
    obtain ⟨j, hj, rfl⟩ := List.mem_map.1 (h.1.mem_iff.1 hk)
    have := List.mem_range.1 hj
    exact ⟨j + 1, by omega, fun hp => le_trans (fmtNat_length_mono (by omega)) (h.2 hp), rfl⟩
  · rw [h.1.nodup_iff]
    refine List.Nodup.map ?_ List.nodup_range
    intro a b h
    have := verName_inj h
    omega

theorem names_last {p N : Nat} {l : List Str} (h : NamedUpTo p N l) (h0 : 0 < N) : verName (p : Int) (N : Int) ∈ l :=
  h.1.mem_iff.2 (List.mem_map.2 ⟨N - 1, List.mem_range.2 (by omega), by simp only [show N - 1 + 1 = N by omega]⟩)

theorem names_highest {p N : Nat} {l : List Str} (h : NamedUpTo p N l) (h0 : 0 < N) : IsHighest p l (verName (p : Int) (N : Int)) := by
  refine ⟨N, h0, rfl, names_last h h0, ?_⟩
  intro m _ hm
  obtain ⟨j, hj, hjm⟩ := List.mem_map.1 (h.1.mem_iff.1 hm)
  have := List.mem_range.1 hj
  have := verName_inj hjm
  omega

/-- what is accepted meets the conditions -/
theorem accepted_checked {env : Env} {r : RawInv} (h : InvAccepted env r) : CheckedInv r := by
  obtain ⟨inv, f, h, hn⟩ := h
  have hnc : ¬ Crashes r := fun hc => by
    obtain ⟨e, he⟩ := (C40_crash_iff env r).2 hc
    rw [h] at he; cases he
  have G := finalize_goodVersions h hn
  obtain ⟨p, N, hpN⟩ := finalize_names h hn
  obtain ⟨h0, hhead⟩ := names_head hpN G.1
  obtain ⟨a, b, ha, hb, rfl, rfl⟩ := finalize_ok h
  simp only [noErrors_append, noErrors_if, Bool.not_eq_true] at hn
  obtain ⟨⟨⟨hb1, hb2⟩, hna⟩, hnb⟩ := hn
  have F := check_findings hb
  have hmem := fun x hx => hnb x ((F.mem x).2 hx)
  have hnum : ∀ v ver, (v, ver) ∈ r.inv.versions → ∃ n, verNumber v = some n := fun v ver hv =>
    (G.1.num v (mem_mkeys_of_mem hv)).imp (fun _ h => h.1)
  have hver : ∀ v ver, (v, ver) ∈ r.inv.versions → ∃ g1 g2, metaFnd env (r.vm v) v ver = .ok g1 ∧ NoErrors g1 ∧
      collect (stateEntryFnd r.inv.manifest v) ver.state = .ok g2 ∧ NoErrors g2 := by
    intro v ver hv
    obtain ⟨n, hn⟩ := hnum v ver hv
    obtain ⟨g, hg⟩ := F.versions_ok _ hv
    obtain ⟨g1, g2, h1, h2, rfl⟩ := versionFnd_ok hn hg
    have hN : NoErrors (g1 ++ g2) := fun x hx => hmem x (Or.inr (Or.inr (Or.inl ⟨_, hv, _, hg, hx⟩)))
    rw [noErrors_append] at hN
    exact ⟨g1, g2, h1, hN.1, h2, hN.2⟩
  have hscal : NoErrors (checkScalars env r) := fun x hx => hmem x (by tauto)
  unfold checkScalars at hscal
  simp only [noErrors_append, noErrors_if] at hscal
  obtain ⟨⟨⟨⟨⟨⟨s1, _⟩, s3⟩, s4⟩, s5⟩, s6⟩, s7⟩ := hscal
  have hman := manifestDigestFnd_noErrors.1 (fun x hx => hmem x (by tauto) : NoErrors (manifestDigestFnd (usedDigests r.inv) [] (mkeys r.inv.manifest)))
  have hpaths : AllPathsSafe r.inv := by
    refine ⟨?_, ?_, ?_⟩
    · intro v ver d ps c hv hd hc
      obtain ⟨_, g2, _, _, h2, hn2⟩ := hver v ver hv
      obtain ⟨g, hg, hgn⟩ := collect_noErrors h2 hn2 hd
      obtain ⟨u, hu, rfl⟩ := stateEntryFnd_ok hg
      rw [noErrors_append] at hgn
      obtain ⟨g', hg', hgn'⟩ := collect_noErrors hu hgn.2 hc
      exact checkPath_noErrors hg' hgn'
    · intro d ps c hd hc
      have hm : c ∈ r.inv.manifest.flatMap (·.2) := List.mem_flatMap.2 ⟨(d, ps), hd, hc⟩
      obtain ⟨g, hg⟩ := F.manifest_ok c hm
      exact checkPath_noErrors hg (fun x hx => hmem x (by (iterate 8 right); exact Or.inl ⟨c, hm, g, hg, hx⟩))
    · intro a m d ps c ha hd hc
      have hm : c ∈ m.flatMap (·.2) := List.mem_flatMap.2 ⟨(d, ps), hd, hc⟩
      obtain ⟨g, hg⟩ := F.fixity_ok (a, m) ha c hm
      exact checkPath_noErrors hg (fun x hx => hmem x (by (iterate 11 right); exact Or.inl ⟨(a, m), ha, c, hm, g, hg, hx⟩))
  refine ⟨⟨?_, ?_⟩, ⟨hb1, hb2⟩, ?_, s1, s4, G.2, ?_, ⟨p, N, h0, hpN, hhead⟩, hman.1, ?_, ?_, ?_, hpaths, ?_⟩
  · cases hh : r.headNil with
    | false => rfl
    | true => exact absurd (Or.inl hh) hnc
  · cases hh : r.headErr with
    | false => rfl
    | true =>
      rw [hh] at s3
      exact absurd (s3 _ (List.mem_singleton.2 rfl)) (by simp [err])
  · intro v ver hv
    obtain ⟨g1, _, h1, hn1, _⟩ := hver v ver hv
    obtain ⟨m1, m2, m3, m4, m5, m6, m7⟩ := metaFnd_noErrors.1 ⟨g1, h1, hn1⟩
    refine ⟨?_, m1, m2, m3, m4, m5, m6, m7⟩
    cases hh : (r.vm v).isNil with
    | false => rfl
    | true => exact absurd (Or.inr (Or.inl ⟨v, ver, hv, hh⟩)) hnc
  · by_cases hc : r.inv.contentDirectory = []
    · rw [hc]; decide
    · refine ⟨fun h => s7 ⟨hc, .inl h⟩, fun h => s7 ⟨hc, .inr (.inl h)⟩, fun h => s7 ⟨hc, .inr (.inr h)⟩⟩
  · intro a m ha
    have := fixityDigestFnd_noErrors (alg := a) (l := mkeys m) (seen := []) (fun x hx => hmem x (by (iterate 10 right); exact Or.inl ⟨(a, m), ha, hx⟩))
    exact ((fixityDigestFnd_nil_iff (by simp)).1 this).1
  · intro d m hd
    obtain ⟨⟨v, ver⟩, hv, hs⟩ := List.mem_flatMap.1 (hman.2.2 d (mem_mkeys_of_mem hd))
    obtain ⟨⟨d', ps⟩, hd', rfl⟩ := List.mem_map.1 hs
    exact ⟨v, ver, ps, hv, hd'⟩
  · intro v ver d ps hv hd
    obtain ⟨_, g2, _, _, h2, hn2⟩ := hver v ver hv
    obtain ⟨g, hg, hgn⟩ := collect_noErrors h2 hn2 hd
    have hin : d ∈ mkeys r.inv.manifest := by
      by_contra hc
      by_cases hl : toLower d ∈ (mkeys r.inv.manifest).map toLower
      · exact absurd (hgn _ ((mem_stateEntryFnd hg _).2 (.inl ⟨hc, .inl ⟨rfl, hl⟩⟩))) (by simp [err])
      · exact absurd (hgn _ ((mem_stateEntryFnd hg _).2 (.inl ⟨hc, .inr ⟨rfl, hl⟩⟩))) (by simp [err])
    obtain ⟨⟨d', m⟩, hm, rfl⟩ := List.mem_map.1 hin
    exact ⟨m, hm⟩
  · intro v ver hv l1 c q l2 hl hu
    have hc : c ∈ statePaths ver.state := mem_sortStr.1 (by rw [hl]; simp)
    obtain ⟨⟨d, ps⟩, hd, hp⟩ := List.mem_flatMap.1 hc
    have hne : logicalFnd ver.state ≠ [] := logicalFnd_ne_nil_iff.2
      ⟨l1, c, q, l2, hl, by rw [trimSuffix_slash (getLast_ne_slash (hpaths.1 v ver d ps c hv hd hp))]; exact hu⟩
    obtain ⟨x, hx⟩ := List.exists_mem_of_ne_nil _ hne
    have h1 := hmem x (by (iterate 6 right); exact Or.inl ⟨(v, ver), hv, hx⟩)
    unfold logicalFnd at hx
    obtain ⟨y, _, rfl⟩ := List.mem_map.1 hx
    simp [err] at h1

/-- what meets the conditions is accepted -/
theorem checked_accepted {env : Env} {r : RawInv} (C : CheckedInv r) : InvAccepted env r := by
  obtain ⟨p, N, h0, hpN, hhead⟩ := C.names
  obtain ⟨hU, hnd⟩ := names_uniform hpN
  have hnum : ∀ v ver, (v, ver) ∈ r.inv.versions → ∃ n, verNumber v = some n := by
    intro v ver hv
    obtain ⟨n, hn, _, rfl⟩ := hU v (mem_mkeys_of_mem hv)
    exact ⟨_, (nameOf_verName (p : Int) hn).verNumber⟩
  have hok : ∃ x, finalize env r = .ok x := by
    by_contra hc
    rcases (C40_crash_iff env r).1 (res_err_iff.2 hc) with h | ⟨v, ver, hv, h⟩ |
      ⟨v, ver, hv, hn, h | ⟨d, ps, hd, hp⟩⟩ | ⟨v, ver, hv, hn, h⟩ | ⟨d, ps, hd, hp⟩ | ⟨a, m, d, ps, ha, hd, hp⟩
    · rw [C.head.1] at h; cases h
    · rw [(C.decoded v ver hv).1] at h; cases h
    · rw [(C.decoded v ver hv).2.1] at h; cases h
    · exact safePath_ne_nil (C.paths.1 v ver d ps [] hv hd hp) rfl
    · obtain ⟨n, h'⟩ := hnum v ver hv; rw [h'] at hn; cases hn
    · exact safePath_ne_nil (C.paths.2.1 d ps [] hd hp) rfl
    · exact safePath_ne_nil (C.paths.2.2 a m d ps [] ha hd hp) rfl
  obtain ⟨⟨inv, f⟩, hx⟩ := hok
  refine ⟨inv, f, hx, ?_⟩
  obtain ⟨a, b, ha, hb, rfl, rfl⟩ := finalize_ok hx
  simp only [noErrors_append, noErrors_if, Bool.not_eq_true]
  refine ⟨⟨C.blocks, ?_⟩, ?_⟩
  · refine noErrors_collect ha ?_
    rintro ⟨v, ver⟩ he g hg x hxg
    obtain ⟨n, hn⟩ := hnum v ver he
    unfold finalizeVersion at hg
    simp only [hn, (C.decoded v ver he).1, Bool.false_eq_true, if_false] at hg
    cases hg
    rcases List.mem_append.1 hxg with h | h
    all_goals
      split at h
      · cases List.mem_singleton.1 h; rfl
      · simp at h
  have hne : r.inv.versions ≠ [] := by
    intro h
    have := names_last hpN h0
    rw [h] at this; simp [mkeys] at this
  have F := check_findings hb
  intro y hy
  rcases (F.mem y).1 hy with h | h | h | h | h | h | h | h | h | h | h | h | h
  · exact absurd h.1 hne
  · exact ((C182_names_iff _).2 ⟨p, N, hpN⟩).2.1 y h
  · obtain ⟨⟨v, ver⟩, he, g, hg, hyg⟩ := h
    obtain ⟨n, hn⟩ := hnum v ver he
    obtain ⟨c, d, hc, hd, rfl⟩ := versionFnd_ok hn hg
    obtain ⟨_, m1, m2, m3, m4, m5, m6, m7⟩ := C.decoded v ver he
    rcases List.mem_append.1 hyg with hyg | hyg
    · obtain ⟨c', hc', hcn⟩ := metaFnd_noErrors (env := env) (k := v) (v := ver) |>.2 ⟨m1, m2, m3, m4, m5, m6, m7⟩
      rw [hc] at hc'; cases hc'
      exact hcn y hyg
    · obtain ⟨⟨dg, ps⟩, hs, g', hg', hyg'⟩ := (mem_collect hd y).1 hyg
      exfalso
      rcases (mem_stateEntryFnd hg' y).1 hyg' with ⟨hni, _⟩ | ⟨c, hc, g'', hg'', hy''⟩
      · obtain ⟨m, hm⟩ := C.covered v ver dg ps he hs
        exact hni (mem_mkeys_of_mem hm)
      · rw [(checkPath_reports hg'').1 (C.paths.1 v ver dg ps c he hs hc)] at hy''
        simp at hy''
  · have := ((C182_names_iff _).2 ⟨p, N, hpN⟩).2.2
    unfold versionNumbers at h
    rw [this] at h; simp at h
  · rw [h.2]; rfl
  · have hr := (recentVersion_uniform hU hnd hne).unique (names_highest hpN h0)
    unfold headFnd at h
    have hm : r.inv.head ∈ getVersionStrings r.inv :=
      (mem_getVersionStrings_uniform hU hnd _).2 (hhead ▸ names_last hpN h0)
    rw [hr, ← hhead] at h
    simp [hm] at h
  · obtain ⟨⟨v, ver⟩, he, hl⟩ := h
    exfalso
    obtain ⟨l1, q1, q2, l2, hlist, hu⟩ := logicalFnd_ne_nil_iff.1 (List.ne_nil_of_mem hl)
    have h1 : q1 ∈ statePaths ver.state := mem_sortStr.1 (by rw [hlist]; simp)
    obtain ⟨⟨d, ps⟩, hd, hp⟩ := List.mem_flatMap.1 h1
    rw [trimSuffix_slash (getLast_ne_slash (C.paths.1 v ver d ps q1 he hd hp))] at hu
    exact C.neighbours v ver he l1 q1 q2 l2 hlist hu
  · refine manifestDigestFnd_noErrors.2 ⟨C.manifestKeys, by simp, ?_⟩ y h
    intro d hd
    obtain ⟨⟨d', m⟩, hm, rfl⟩ := List.mem_map.1 hd
    obtain ⟨v, ver, ps, hv, hs⟩ := C.used d' m hm
    exact List.mem_flatMap.2 ⟨(v, ver), hv, mem_mkeys_of_mem hs⟩
  · obtain ⟨c, hc, g, hg, hyg⟩ := h
    obtain ⟨⟨d, m⟩, hm, hcm⟩ := List.mem_flatMap.1 hc
    rw [(checkPath_reports hg).1 (C.paths.2.1 d m c hm hcm)] at hyg
    simp at hyg
  · exfalso
    apply C38_full_fails_never_reported hb (fun d m c hm hc => getLast_ne_slash (C.paths.2.1 d m c hm hc))
    exact (hasCode_101_iff hb).2 (List.ne_nil_of_mem h)
  · obtain ⟨⟨al, m⟩, hm, h⟩ := h
    rw [(fixityDigestFnd_nil_iff (by simp)).2 ⟨C.fixityKeys al m hm, by simp⟩] at h
    simp at h
  · obtain ⟨⟨al, m⟩, hm, c, hc, g, hg, hyg⟩ := h
    obtain ⟨⟨d, ps⟩, hd, hcm⟩ := List.mem_flatMap.1 hc
    rw [(checkPath_reports hg).1 (C.paths.2.2 al m d ps c hm hd hcm)] at hyg
    simp at hyg
  · have hh : r.inv.head ≠ [] := by rw [hhead]; exact verName_ne_nil _ _
    unfold checkScalars at h
    simp only [C.head.2, C.id, hh, C.spec, C.alg, C.contentDirectory, Bool.false_eq_true, if_false, or_self, and_false, ne_eq, not_false_eq_true, true_and, not_true_eq_false, List.append_nil, List.nil_append] at h
    rw [if_neg (show ¬ ("sha512".toList = "sha256".toList) by decide), if_neg (show ¬ ("sha512".toList = []) by decide)] at h
    simp only [List.append_nil] at h
    split at h
    · cases List.mem_singleton.1 h; rfl
    · simp at h

/-- **C183, exactness.** An inventory file is accepted exactly if it meets the conditions of `CheckedInv`. -/
theorem C183_accepted_iff (env : Env) (r : RawInv) : InvAccepted env r ↔ CheckedInv r := ⟨accepted_checked, checked_accepted⟩

/-- An inventory file that is valid by the specification. -/
def SpecInv (r : RawInv) : Prop :=
  Decoded r ∧ (∃ p N, ValidInv p N r.inv) ∧ (r.inv.digestAlg = "sha512".toList ∨ r.inv.digestAlg = "sha256".toList)

/-- The full claim: exactly the valid inventories are accepted. -/
def C183_full : Prop := ∀ env r, InvAccepted env r ↔ SpecInv r

/-- **C183.** A valid inventory with sha512 is accepted. Missing: sha256. -/
theorem C183_valid_partial {env : Env} {r : RawInv} (h : SpecInv r) (ha : r.inv.digestAlg = "sha512".toList) : InvAccepted env r := by
  obtain ⟨D, ⟨p, N, V⟩, _⟩ := h
  obtain ⟨f, hf, hn⟩ := valid_finalize env V D ha
  exact ⟨_, f, hf, hn⟩

/-- What is left unchecked. -/
structure Unchecked (r : RawInv) : Prop where
  /-- states are not `null` -/
  states : ∀ v ver, (v, ver) ∈ r.inv.versions → (r.vm v).stateNil = false
  /-- keys are given once, which decoding sees to -/
  stateKeys : ∀ v ver, (v, ver) ∈ r.inv.versions → (mkeys ver.state).Nodup
  nonempty : (∀ d m, (d, m) ∈ r.inv.manifest → m ≠ []) ∧ ∀ a mm d m, (a, mm) ∈ r.inv.fixity → (d, m) ∈ mm → m ≠ []
  noConflict : ¬ LogicalConflict r.inv
  content : ∀ d m c, (d, m) ∈ r.inv.manifest → c ∈ m →
    ∃ v ver q, (v, ver) ∈ r.inv.versions ∧ c = v ++ '/' :: r.inv.contentDir ++ '/' :: q

/-- **C183.** What is accepted is valid exactly if it meets what is left unchecked. -/
theorem C183_accepted_partial {env : Env} {r : RawInv} (h : InvAccepted env r) : SpecInv r ↔ Unchecked r := by
  have C := accepted_checked h
  constructor
  · rintro ⟨D, ⟨p, N, V⟩, _⟩
    exact ⟨fun v ver hv => (D.versions v ver hv).2.2.2.2.2.2.2.1, V.stateKeys, V.nonempty, V.noConflict, V.content⟩
  · intro U
    obtain ⟨p, N, h0, hpN, hhead⟩ := C.names
    refine ⟨⟨C.head, C.blocks, ?_⟩, ⟨p, N, ?_⟩, .inl C.alg⟩
    · intro v ver hv
      obtain ⟨m0, m1, m2, m3, m4, m5, m6, m7⟩ := C.decoded v ver hv
      exact ⟨m0, m1, m2, m3, m4, m5, m6, U.states v ver hv, m7⟩
    · exact ⟨C.id, C.spec, C.contentDirectory, h0, hpN.2, hpN.1, hhead, C.manifestKeys, U.stateKeys, C.fixityKeys, C.used, C.covered,
        U.nonempty, C.paths, U.noConflict, U.content⟩

/-! ## What fails -/

/-- **C183 fails**: no inventory with sha256 is accepted, which the specification permits. -/
theorem C183_full_fails_sha256 {env : Env} {r : RawInv} (h : r.inv.digestAlg = "sha256".toList) : ¬ InvAccepted env r := fun ha =>
  absurd (h.symm.trans (accepted_checked ha).alg) (by decide)

theorem accepted_of {env : Env} {r : RawInv} (h : (finalize env r).toOption.any (fun x => x.2.all (fun y => !y.isErr)) = true) :
    InvAccepted env r := by
  cases hf : finalize env r with
  | error e => rw [hf] at h; cases h
  | ok x =>
    refine ⟨x.1, x.2, hf, ?_⟩
    rw [hf] at h
    intro y hy
    have h : x.2.all (fun y => !y.isErr) = true := h
    simpa using List.all_eq_true.1 h y hy

/-- one version with the file `a`, with the given content path -/
def aiRaw (c : Str) : RawInv :=
  { inv := { id := "o".toList, spec := "s".toList, digestAlg := "sha512".toList, head := "v1".toList, contentDirectory := [],
             manifest := [("d1".toList, [c])],
             versions := [("v1".toList, { created := [], message := [], userName := [], userAddress := [], state := [("d1".toList, ["a".toList])] })],
             fixity := [], fixityAlgs := [], paddingLength := 0, modified := false, writeable := false },
    vmeta := [] }

/-- **C183 fails**: an inventory with its content outside the versions is accepted. -/
theorem C183_full_fails_content : InvAccepted exEnv (aiRaw "elsewhere".toList) ∧ ¬ SpecInv (aiRaw "elsewhere".toList) := by
  refine ⟨accepted_of (by decide), ?_⟩
  rintro ⟨_, ⟨p, N, V⟩, _⟩
  obtain ⟨v, ver, q, _, h⟩ := V.content "d1".toList ["elsewhere".toList] "elsewhere".toList (by simp [aiRaw]) (by simp)
  have : '/' ∈ "elsewhere".toList := by rw [h]; simp
  exact absurd this (by decide)

theorem C183_full_fails : ¬ C183_full := fun h => C183_full_fails_content.2 ((h _ _).1 C183_full_fails_content.1)

/-- the other way of failing is real, too: a valid inventory with sha256 -/
example : SpecInv { inv := nfaRoot "sha256".toList "data".toList, vmeta := [] } :=
  have O := nfa_object (.inr (.inl ⟨rfl, rfl⟩))
  ⟨O.decoded, ⟨0, 2, O.inv⟩, O.alg⟩

/-! ## Cases -/

/-- an inventory that is accepted and valid -/
example : InvAccepted exEnv (aiRaw "v1/content/a".toList) := accepted_of (by decide)

example : SpecInv { inv := nfaRoot "sha512".toList "data".toList, vmeta := [] } ∧ InvAccepted exEnv { inv := nfaRoot "sha512".toList "data".toList, vmeta := [] } := by
  have O := nfa_object (.inl ⟨rfl, rfl⟩)
  have S : SpecInv { inv := nfaRoot "sha512".toList "data".toList, vmeta := [] } := ⟨O.decoded, ⟨0, 2, O.inv⟩, O.alg⟩
  exact ⟨S, C183_valid_partial S rfl⟩

end Gocfl
