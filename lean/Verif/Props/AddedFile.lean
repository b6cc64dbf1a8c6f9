import Verif.Props.Damage

/-! # C190: files put into an object's folder -/

namespace Gocfl

/-- A file of this name may be put into the folder of the object without notice. -/
inductive UnseenName (r : RawInv) (k : Str) : Prop
  | ignored (h : Ignored k)
  /-- named like an inventory or a sidecar -/
  | top (hs : '/' ∉ k) (h : MatchedName k) (hd : ∀ num, IsVersionNum num → k ≠ declName num)
  /-- in a folder beside the content directory of a version -/
  | beside (v q : Str) (hv : v ∈ mkeys r.inv.versions) (hk : k = v ++ '/' :: q) (hq : '/' ∈ q) (hc : ¬ r.inv.contentDir <+: q)

theorem added_split {k : Str} (h : '/' ∈ k) : ∃ d q, k = d ++ '/' :: q ∧ '/' ∉ d := by
  induction k with
  | nil => simp at h
  | cons c k ih =>
    by_cases hc : c = '/'
    · subst hc; exact ⟨[], k, rfl, by simp⟩
    · rcases List.mem_cons.1 h with h | h
      · exact absurd h.symm hc
      obtain ⟨d, q, rfl, hd⟩ := ih h
      exact ⟨c :: d, q, rfl, by simp [hd, Ne.symm hc]⟩

theorem added_split_unique {d d' q q' : Str} (h : d ++ '/' :: q = d' ++ '/' :: q') (hd : '/' ∉ d) (hd' : '/' ∉ d') : d = d' ∧ q = q' := by
  have := congrArg (List.takeWhile (fun c => decide (c ≠ '/'))) h
  rw [takeWhile_slash hd, takeWhile_slash hd'] at this
  subst this
  exact ⟨rfl, by simpa using List.append_cancel_left h⟩

/-- a folder with one declaration is still recognised after a file was added if and only if that is no declaration -/
theorem declared_added {fs : FS} {k v : Str} {b : Bytes} (hv : getVersion objDecl (topFiles fs) = .version v)
    (ht : '/' ∉ k → MatchedName k) :
    (∃ v', getVersion objDecl (topFiles (fs ++ [(k, b)])) = .version v') ↔ ∀ num, IsVersionNum num → k ≠ declName num := by
  rw [topFiles_append]
  by_cases hk : '/' ∈ k
  · have e : topFiles [(k, b)] = [] := by simp [topFiles, hk]
    rw [e, List.append_nil]
    exact ⟨fun _ num hn he => declName_slash hn (he ▸ hk), fun _ => ⟨v, hv⟩⟩
  have e : topFiles [(k, b)] = [⟨k, false, some (bytesStr b)⟩] := by simp [topFiles, hk]
  rw [e]
  have T := matched_tidy (ht hk)
  cases hf : declFind objDecl k with
  | none =>
    refine ⟨fun _ num hn he => ?_, fun _ => ⟨v, ?_⟩⟩
    · have := (declFind_tidy T num).2 ⟨hn, he⟩
      rw [hf] at this; cases this
    · rw [← hv, getVersion_eq, getVersion_eq, declFiles_append, declFiles_cons]
      simp only [Bool.false_eq_true, if_false, hf]
      simp [declFiles]
  | some u =>
    obtain ⟨hu, hku⟩ := (declFind_tidy T u).1 hf
    refine ⟨fun ⟨v', hv'⟩ => ?_, fun h => absurd hku (h u hu)⟩
    obtain ⟨e0, he0, _⟩ := getVersion_version hv
    obtain ⟨e1, he1, _⟩ := getVersion_version hv'
    rw [declFiles_append, he0, declFiles_cons] at he1
    simp only [Bool.false_eq_true, if_false, hf] at he1
    simp at he1

theorem invAt_mono {w : World} {fs fs' : FS} (h : ∀ x b, mget fs x = some b → mget fs' x = some b) {i : RawInv} (hi : InvAt w fs i) :
    InvAt w fs' i := by
  obtain ⟨⟨b, sb, hash, h1, h2, h3, h4, h5⟩, C⟩ := hi
  exact ⟨⟨b, sb, hash, h _ _ h1, h2, h3, h _ _ h4, h5⟩, C⟩

theorem part_added {w : World} {fs fs' : FS} {root i : Inv} (h : ∀ x b, mget fs x = some b → mget fs' x = some b)
    (hl : ∀ v t b, v ∈ mkeys root.versions → mget fs' (v ++ '/' :: root.contentDir ++ t) = some b → mget fs (v ++ '/' :: root.contentDir ++ t) = some b)
    (P : PartAccepted w fs root i) : PartAccepted w fs' root i := by
  have hF : ∀ {a d c}, FileOf w fs (mkeys root.versions) a d c → FileOf w fs' (mkeys root.versions) a d c := by
    rintro a d c ⟨v, q, b, hash, hvk, rfl, hb, h1, h2⟩
    exact ⟨v, q, b, hash, hvk, rfl, h _ _ hb, h1, h2⟩
  exact ⟨P.placed, fun d m h => (P.digests d m h).imp (fun _ => hF), fun d m c h hc => hF (P.content d m c h hc), P.fixityAlgs,
    fun a mm d m h hd => (P.fixityDigests a mm d m h hd).imp (fun _ => hF), fun a mm d m c h hd hc => hF (P.fixity a mm d m c h hd hc),
    fun v t b h1 h2 hb => P.listed v t b h1 h2 (hl v t b h2 hb)⟩

/-- **C190, exactly.** A file is put into the folder of an accepted object whose versions all have inventories — which on a
local disk they must have.  The object still validates if and only if the name is among the unseen ones. -/
theorem C190_added_iff {w : World} {plain : Bool} {fs : FS} {r : RawInv} {k : Str} {b : Bytes} (O : ObjAccepted w plain fs r)
    (hnew : mget fs k = none) (hinv : ∀ v ∈ mkeys r.inv.versions, mget fs (v ++ "/inventory.json".toList) ≠ none) :
    (∃ r', ObjAccepted w plain (fs ++ [(k, b)]) r') ↔ UnseenName r k := by
  obtain ⟨pn, N, hN0, hpN, hhead⟩ := O.root.2.names
  have hothers : ∀ x, x ≠ k → mget (fs ++ [(k, b)]) x = mget fs x := fun x hx => mget_append_last hx
  have hmono : ∀ x y, mget fs x = some y → mget (fs ++ [(k, b)]) x = some y := by
    intro x y hx
    rw [hothers x (by rintro rfl; rw [hnew] at hx; cases hx), hx]
  have hk' : mget (fs ++ [(k, b)]) k = some b := by
    clear * - hnew
    induction fs with
    | nil => show (if k = k then some b else none) = some b; rw [if_pos rfl]
    | cons e l ih =>
      obtain ⟨a, c⟩ := e
      simp only [mget, List.cons_append] at hnew ⊢
      split at hnew
      · cases hnew
      · rename_i hne
        rw [if_neg hne]; exact ih hnew
  have hdec : ∀ x y, mget (fs ++ [(k, b)]) x = some y → x = k ∨ mget fs x = some y := by
    intro x y hx
    by_cases h : x = k
    · exact .inl h
    · rw [hothers x h] at hx; exact .inr hx
  obtain ⟨v0, hv0⟩ := O.declared
  constructor
  · rintro ⟨r', O'⟩
    have hr : r' = r := by
      obtain ⟨⟨c, _, _, hc, hd, _⟩, _⟩ := O.root
      obtain ⟨⟨c', _, _, hc', hd', _⟩, _⟩ := O'.root
      rw [hmono _ _ hc] at hc'; cases hc'
      rw [hd] at hd'; cases hd'; rfl
    subst hr
    by_cases hs : '/' ∈ k
    · obtain ⟨d, q, rfl, hd⟩ := added_split hs
      rcases O'.dirs d q b hk' hd with hv | rfl | rfl
      · by_cases hq : '/' ∈ q
        · refine .beside d q hv rfl hq ?_
          rintro ⟨t, rfl⟩
          have e : d ++ '/' :: (r'.inv.contentDir ++ t) = d ++ '/' :: r'.inv.contentDir ++ t := by simp
          obtain ⟨dg, m, hm, hkm⟩ := O'.part.listed d t b hv hv (by rw [← e]; exact hk')
          rw [e] at hnew
          obtain ⟨_, _, c, _, _, _, hc, _⟩ := O.part.content dg m _ hm hkm
          rw [hnew] at hc; cases hc
        · exfalso
          have hne := hinv d hv
          obtain ⟨c, hc⟩ := Option.ne_none_iff_exists'.1 hne
          obtain ⟨i, hi, V⟩ := O'.versions d hv (by rw [hmono _ _ hc]; simp)
          rcases V.files q b hk' hq with rfl | rfl
          · exact hne hnew
          · obtain ⟨j, hj, _⟩ := O.versions d hv hne
            obtain ⟨⟨_, sb, _, _, _, _, hsb, _⟩, C⟩ := hj
            rw [C.alg, mget_subFS, under_side] at hsb
            exact absurd (hsb.symm.trans hnew) (by simp)
      · exact .ignored ⟨q, .inl rfl⟩
      · exact .ignored ⟨q, .inr rfl⟩
    · have hM := O'.files k b hk' hs
      exact .top hs hM ((declared_added hv0 (fun _ => hM)).1 O'.declared)
  · intro U
    refine ⟨r, ?_⟩
    have hver : ∀ v ∈ mkeys r.inv.versions, '/' ∉ v := names_noSlash hpN
    have hvn : ∀ v ∈ mkeys r.inv.versions, v ≠ "logs".toList ∧ v ≠ "extensions".toList := by
      intro v hv
      constructor
      all_goals
        rintro rfl
        obtain ⟨j, _, hj⟩ := List.mem_map.1 (hpN.1.mem_iff.1 hv)
        have := congrArg List.head? hj
        rw [verName_head] at this
        revert this; decide
    -- in a version's folder only deep names beside the content directory are new
    have hunder : ∀ v ∈ mkeys r.inv.versions, ∀ q, v ++ '/' :: q = k → '/' ∈ q ∧ ¬ r.inv.contentDir <+: q := by
      intro v hv q hq
      cases U with
      | ignored h => exact absurd (hq ▸ h) (not_ignored_under (hver v hv) (hvn v hv).1 (hvn v hv).2)
      | top hs _ _ => exact absurd (hq ▸ (by simp) : '/' ∈ k) hs
      | beside u p hu hk hp hc =>
        obtain ⟨rfl, rfl⟩ := added_split_unique (hq.trans hk) (hver v hv) (hver u hu)
        exact ⟨hp, hc⟩
    have hdecl : ∀ num, IsVersionNum num → k ≠ declName num := by
      cases U with
      | ignored h =>
        rintro num hn rfl
        exact not_ignored_top (declName_slash hn) h
      | top _ _ h => exact h
      | beside u p hu hk hp hc =>
        rintro num hn rfl
        exact declName_slash hn (by rw [hk]; simp)
    have htop : '/' ∉ k → MatchedName k := by
      intro hs
      cases U with
      | ignored h => obtain ⟨q, rfl | rfl⟩ := h <;> simp at hs
      | top _ h _ => exact h
      | beside u p hu hk hp hc => exact absurd (by rw [hk]; simp) hs
    have hdirs : ∀ d q, d ++ '/' :: q = k → '/' ∉ d → d ∈ mkeys r.inv.versions ∨ d = "logs".toList ∨ d = "extensions".toList := by
      intro d q hq hd
      cases U with
      | ignored h =>
        obtain ⟨q', h | h⟩ := h
        · exact .inr (.inl (added_split_unique (hq.trans h) hd (by decide)).1)
        · exact .inr (.inr (added_split_unique (hq.trans h) hd (by decide)).1)
      | top hs _ _ => exact absurd (hq ▸ (by simp) : '/' ∈ k) hs
      | beside u p hu hk hp hc =>
        obtain ⟨rfl, rfl⟩ := added_split_unique (hq.trans hk) hd (hver u hu)
        exact .inl hu
    have hcont : ∀ v t y, v ∈ mkeys r.inv.versions → mget (fs ++ [(k, b)]) (v ++ '/' :: r.inv.contentDir ++ t) = some y →
        mget fs (v ++ '/' :: r.inv.contentDir ++ t) = some y := by
      intro v t y hv hy
      rcases hdec _ _ hy with h | h
      · exact absurd (List.prefix_append _ _) (hunder v hv (r.inv.contentDir ++ t) (by simpa using h)).2
      · exact h
    have hsub : ∀ v ∈ mkeys r.inv.versions, ∀ i, InvAt w (subFS fs v) i ↔ InvAt w (subFS (fs ++ [(k, b)]) v) i := by
      intro v hv i
      have e : ∀ x, '/' ∉ x → mget (subFS (fs ++ [(k, b)]) v) x = mget (subFS fs v) x := by
        intro x hx
        rw [mget_subFS, mget_subFS]
        exact hothers _ (fun hc => hx (hunder v hv x hc).1)
      have e1 := e rootInvPath (by decide)
      refine invAt_iff e1 ?_ i
      intro c hash _ _
      rw [e (rootSidecarPath "sha512".toList) (by decide)]
    refine ⟨(declared_added hv0 htop).2 hdecl, invAt_mono hmono O.root, ?_, ?_, ?_, ?_, ?_, part_added hmono hcont O.part, ?_, ?_, ?_, ?_, ?_, ?_⟩
    · intro n y hy hn
      rcases hdec n y hy with rfl | h
      · exact htop hn
      · exact O.files n y h hn
    · intro d q y hy hd
      rcases hdec _ y hy with h | h
      · exact hdirs d q h hd
      · exact O.dirs d q y h hd
    · intro v hv
      obtain ⟨q, y, hy⟩ := O.folders v hv
      exact ⟨q, y, hmono _ _ hy⟩
    · intro v n y hv hy hn
      rcases hdec _ y hy with h | h
      · exact absurd (hunder v hv n h).1 hn
      · exact O.versionFiles v n y hv h hn
    · intro hp v hv
      obtain ⟨t, y, hy⟩ := O.content hp v hv
      exact ⟨t, y, hmono _ _ hy⟩
    · intro a ha
      exact (O.fixityAlgs a ha).imp_right (fun ⟨v, i, hvk, hi, h⟩ => ⟨v, i, hvk, (hsub v hvk i).1 hi, h⟩)
    · intro v hv _
      obtain ⟨c, hc⟩ := Option.ne_none_iff_exists'.1 (hinv v hv)
      rw [hmono _ _ hc]; simp
    · intro v hv _
      obtain ⟨i, hi, V⟩ := O.versions v hv (hinv v hv)
      refine ⟨i, (hsub v hv i).1 hi, V.id, V.head, V.known, V.agree, part_added hmono hcont V.part, fun n y hy hn => ?_⟩
      rcases hdec _ y hy with h | h
      · exact absurd (hunder v hv n h).1 hn
      · exact V.files n y h hn
    · intro u v i j hu hv h1 hi hj
      exact O.contentDirectory u v i j hu hv h1 ((hsub u hu i).2 hi) ((hsub v hv j).2 hj)
    · intro u v i j n hu hv h1 h2 hi hj
      exact O.specs u v i j n hu hv h1 h2 ((hsub u hu i).2 hi) ((hsub v hv j).2 hj)
    · intro i hi
      exact O.last i ((hsub _ (by rw [hhead]; exact names_last hpN hN0) i).2 hi)

/-- **C190** as validation shows it, on a local disk: other files are noticed. -/
theorem C190_added_partial {w : World} {env env' : Env} {blank blank' : Inv} {fs : FS} {folder k : Str} {b : Bytes} (hlow : LowerHash w)
    (h : ∃ F, checkFolder w env false blank fs folder = .ok F ∧ NoErrors F) (hnew : mget (subFS fs folder) k = none) :
    ∃ r, ObjAccepted w false (subFS fs folder) r ∧
      ((∃ F', checkFolder w env' false blank' (fs ++ [(under folder k, b)]) folder = .ok F' ∧ NoErrors F') ↔ UnseenName r k) := by
  obtain ⟨r, O⟩ := (C184_accepted_iff hlow).1 h
  refine ⟨r, O, ?_⟩
  have e : subFS (fs ++ [(under folder k, b)]) folder = subFS fs folder ++ [(k, b)] := by
    unfold subFS
    rw [List.filterMap_append, List.filterMap_cons]
    simp [stripFolder_eq_some.2 (rfl : under folder k = under folder k)]
  rw [C184_accepted_iff hlow, e]
  exact C190_added_iff O hnew (fun v hv => O.inventory v hv (.inl rfl))

/-- The full claim: no file can be put into an object outside `logs` and `extensions` without notice. -/
def C190_full : Prop := ∀ (w : World) (env : Env) (plain : Bool) (blank : Inv) (fs : FS) (folder k : Str) (b : Bytes), LowerHash w →
  (∃ F, checkFolder w env plain blank fs folder = .ok F ∧ NoErrors F) → mget (subFS fs folder) k = none → ¬ Ignored k →
  ¬ ∃ F', checkFolder w env plain blank (fs ++ [(under folder k, b)]) folder = .ok F' ∧ NoErrors F'

/-- C190 is violated: files in a version's folder beside the content directory … -/
theorem C190_full_fails : ¬ C190_full := by
  intro hf
  exact hf ockWorld exEnv false ockInv ockFS "o".toList "v1/notes/n".toList [1] ock_lower (checked_of (by decide)) (by decide)
    (not_ignored_under (d := "v1".toList) (by decide) (by decide) (by decide)) (checked_of (by decide))

/-- … and files named like an inventory or a sidecar. -/
theorem C190_full_fails_name : ¬ C190_full := by
  intro hf
  exact hf ockWorld exEnv false ockInv ockFS "o".toList "inventory_json".toList [1] ock_lower (checked_of (by decide)) (by decide)
    (not_ignored_top (by decide)) (checked_of (by decide))

/-- a file in the content directory is noticed -/
example : ¬ ∃ F', checkFolder ockWorld exEnv false ockInv (ockFS ++ [("o/v1/content/b".toList, [1])]) "o".toList = .ok F' ∧ NoErrors F' := by
  obtain ⟨r, O, h⟩ := C190_added_partial (env := exEnv) (env' := exEnv) (blank := ockInv) (blank' := ockInv) (fs := ockFS) (folder := "o".toList)
    (k := "v1/content/b".toList) (b := [1]) ock_lower ⟨[], ock_accepted, by simp [NoErrors]⟩ (by decide)
  have hr : r.inv = ockInv := by
    obtain ⟨⟨b, _, _, hb, hd, _⟩, _⟩ := O.root
    rw [show mget (subFS ockFS "o".toList) rootInvPath = some [9] by decide] at hb
    cases hb
    have : ockWorld.dec [9] = some { inv := ockInv, vmeta := [] } := rfl
    rw [this] at hd; cases hd; rfl
  refine fun h' => ?_
  cases h.1 h' with
  | ignored h => exact not_ignored_under (d := "v1".toList) (by decide) (by decide) (by decide) h
  | top hs _ _ => exact absurd hs (by decide)
  | beside v q hv hk _ hc =>
    rw [hr] at hv hc
    have hv : v = "v1".toList := by simpa [ockInv] using hv
    subst hv
    have hq : q = "content/b".toList := (List.append_cancel_left (as := "v1/".toList) hk).symm
    subst hq
    exact hc (by decide)

end Gocfl
