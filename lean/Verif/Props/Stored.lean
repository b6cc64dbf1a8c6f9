import Verif.Model.LoadLemmas
import Verif.Props.Determinism
import Mathlib.Data.Countable.Basic
import Mathlib.Logic.Equiv.List

/-!
# Crash points and stored inventories (C22–C24)
-/

namespace Gocfl

/-! ## C23 -/

/-- What loading decides about the sidecar, in terms of the files. -/
theorem loadRoot_ok {w : World} {env : Env} {fs : FS} {i : Inv} {f : List Fnd} (h : loadRoot w env fs = .ok (i, f)) :
    ∃ b r x g, mget fs rootInvPath = some b ∧ w.dec b = some r ∧ finalize env r = .ok x ∧
      sidecarFnd w fs (rootSidecarPath r.inv.digestAlg) r.inv.digestAlg b = .ok g ∧
      i = { x.1 with modified := false, writeable := false } ∧ f = x.2 ++ g := by
  unfold loadRoot at h
  split at h
  · cases h
  · rename_i b hb
    split at h
    · cases h
    · rename_i r hr
      obtain ⟨x, hx, h⟩ := res_bind_eq_ok.1 h
      obtain ⟨g, hg, h⟩ := res_bind_eq_ok.1 h
      cases h
      exact ⟨b, r, x, g, hb, hr, hx, hg, rfl, rfl⟩

/-- **C23.** Whenever an inventory is loaded, what is wrong with its sidecar is reported: `E058` exactly if it is
missing, `E061` exactly if it does not have the form of a sidecar, `E060` exactly if it names a digest other than
that of the bytes of the inventory. -/
theorem C23_sidecar_findings {w : World} {env : Env} {fs : FS} {i : Inv} {f : List Fnd}
    (h : loadRoot w env fs = .ok (i, f)) :
    ∃ b r, mget fs rootInvPath = some b ∧ w.dec b = some r ∧
      (HasCode f (.E 58) ↔ mget fs (rootSidecarPath r.inv.digestAlg) = none) ∧
      (HasCode f (.E 61) ↔ ∃ sb, mget fs (rootSidecarPath r.inv.digestAlg) = some sb ∧
        ∀ dg, ¬ SidecarText (bytesStr sb) dg) ∧
      (HasCode f (.E 60) ↔ ∃ sb dg hash, mget fs (rootSidecarPath r.inv.digestAlg) = some sb ∧
        SidecarText (bytesStr sb) dg ∧ w.hash r.inv.digestAlg = some hash ∧ dg ≠ hash b) := by
  obtain ⟨b, r, x, g, hb, hr, hx, hg, _, rfl⟩ := loadRoot_ok h
  refine ⟨b, r, hb, hr, ?_⟩
  have hn := noSide_finalize hx
  have red : ∀ c, sideCode c = true → (HasCode (x.2 ++ g) c ↔ HasCode g c) := by
    intro c hc
    rw [hasCode_append]
    exact or_iff_right (not_hasCode_of_noSide hn hc)
  rw [red _ (by decide), red _ (by decide), red _ (by decide)]
  unfold sidecarFnd at hg
  split at hg
  · rename_i hs
    cases hg
    rw [hs]
    refine ⟨⟨fun _ => rfl, fun _ => ⟨_, List.mem_singleton.2 rfl, rfl⟩⟩, ⟨?_, ?_⟩, ⟨?_, ?_⟩⟩
    · rintro ⟨x, hx, hc⟩; cases List.mem_singleton.1 hx; cases hc
    · rintro ⟨sb, h, _⟩; cases h
    · rintro ⟨x, hx, hc⟩; cases List.mem_singleton.1 hx; cases hc
    · rintro ⟨sb, _, _, h, _⟩; cases h
  · rename_i sb hs
    rw [hs]
    split at hg
    · rename_i hm
      cases hg
      have hno : ∀ dg, ¬ SidecarText (bytesStr sb) dg := by
        intro dg hd
        rw [sidecarMatch_iff.2 hd] at hm; cases hm
      refine ⟨⟨?_, ?_⟩, ⟨fun _ => ⟨sb, rfl, hno⟩, fun _ => ⟨_, List.mem_singleton.2 rfl, rfl⟩⟩, ⟨?_, ?_⟩⟩
      · rintro ⟨x, hx, hc⟩; cases List.mem_singleton.1 hx; cases hc
      · intro h; cases h
      · rintro ⟨x, hx, hc⟩; cases List.mem_singleton.1 hx; cases hc
      · rintro ⟨_, dg, _, h, hd, _⟩; cases h; exact absurd hd (hno dg)
    · rename_i dg hm
      have hd := sidecarMatch_iff.1 hm
      split at hg
      · cases hg
      · rename_i hash hh
        cases hg
        have hcode : ∀ c, HasCode (if dg = hash b then [] else [err 60 [dg, hash b]]) c ↔ dg ≠ hash b ∧ c = .E 60 := by
          intro c
          split
          · rename_i e
            exact ⟨fun ⟨x, hx, _⟩ => absurd hx (by simp), fun h => absurd e h.1⟩
          · rename_i e
            refine ⟨fun ⟨x, hx, hc⟩ => ⟨e, ?_⟩, fun h => ⟨_, List.mem_singleton.2 rfl, h.2.symm⟩⟩
            cases List.mem_singleton.1 hx; exact hc.symm
        rw [hcode, hcode, hcode]
        refine ⟨⟨fun h => (Code.noConfusion h.2 (fun h => absurd h (by decide))), fun h => by cases h⟩,
          ⟨fun h => (Code.noConfusion h.2 (fun h => absurd h (by decide))), ?_⟩, ⟨?_, ?_⟩⟩
        · rintro ⟨_, h, hno⟩; cases h; exact absurd hd (hno dg)
        · rintro ⟨h, _⟩; exact ⟨sb, dg, hash, rfl, hd, hh, h⟩
        · rintro ⟨_, dg', _, h1, h2, h3, h4⟩
          cases h1
          rw [hh] at h3; cases h3
          rw [sidecarText_unique hd h2]
          exact ⟨h4, rfl⟩

/-- **C23.** An inventory loaded without one of these findings agrees with its sidecar. -/
theorem C23_silent_means_match {w : World} {env : Env} {fs : FS} {i : Inv} {f : List Fnd}
    (h : loadRoot w env fs = .ok (i, f)) (h58 : ¬ HasCode f (.E 58)) (h60 : ¬ HasCode f (.E 60))
    (h61 : ¬ HasCode f (.E 61)) :
    ∃ b r sb hash, mget fs rootInvPath = some b ∧ w.dec b = some r ∧
      mget fs (rootSidecarPath r.inv.digestAlg) = some sb ∧ w.hash r.inv.digestAlg = some hash ∧
      SidecarText (bytesStr sb) (hash b) := by
  obtain ⟨b, r, hb, hr, e58, e61, e60⟩ := C23_sidecar_findings h
  obtain ⟨b', r', x, g, hb', hr', hx, hg, _, rfl⟩ := loadRoot_ok h
  rw [hb] at hb'; cases hb'
  rw [hr] at hr'; cases hr'
  cases hs : mget fs (rootSidecarPath r.inv.digestAlg) with
  | none => exact absurd (e58.2 hs) h58
  | some sb =>
    by_cases hd : ∃ dg, SidecarText (bytesStr sb) dg
    · obtain ⟨dg, hd⟩ := hd
      unfold sidecarFnd at hg
      rw [hs] at hg
      simp only [sidecarMatch_iff.2 hd] at hg
      cases hh : w.hash r.inv.digestAlg with
      | none => rw [hh] at hg; cases hg
      | some hash =>
        refine ⟨b, r, sb, hash, hb, hr, hs, hh, ?_⟩
        by_cases he : dg = hash b
        · rw [← he]; exact hd
        · exact absurd (e60.2 ⟨sb, dg, hash, hs, hd, hh, he⟩) h60
    · exact absurd (e61.2 ⟨sb, hs, fun dg h => hd ⟨dg, h⟩⟩) h61

/-- **C23, full statement** (false): an inventory that disagrees with its sidecar is not accepted. -/
def C23_full : Prop :=
  ∀ (w : World) (env : Env) (fs : FS) (b sb : Bytes) (r : RawInv) (hash : Bytes → Str),
    mget fs rootInvPath = some b → w.dec b = some r → w.hash r.inv.digestAlg = some hash →
    mget fs (rootSidecarPath r.inv.digestAlg) = some sb → ¬ SidecarText (bytesStr sb) (hash b) →
    ∃ e, loadRoot w env fs = .error e

/-- as `exWorld`, reading every file as the inventory `exInv` -/
def exWorldDec : World := { exWorld with dec := fun _ => some (rawOf exInv) }

/-- The mismatch is only recorded; the inventory is used. -/
theorem C23_full_fails : ¬ C23_full := by
  intro hf
  have h0 : (loadRoot exWorldDec exEnv [(rootInvPath, [7]), (rootSidecarPath "sha512".toList, [])]).toOption.isSome = true := by
    decide
  obtain ⟨e, he⟩ := hf exWorldDec exEnv [(rootInvPath, [7]), (rootSidecarPath "sha512".toList, [])] [7] [] (rawOf exInv)
    (fun b => 'a' :: List.replicate b.length '0') (by decide) rfl rfl (by decide) (by
      intro h
      have := sidecarMatch_iff.2 h
      exact absurd this (by decide))
  rw [he] at h0
  cases h0

/-- a file system where the findings are all absent, and one where `E060` is reported -/
example : ∃ i f, loadRoot exWorldDec exEnv
    [(rootInvPath, [7]), (rootSidecarPath "sha512".toList, sidecarText "a0".toList)] = .ok (i, f) ∧
    ¬ HasCode f (.E 58) ∧ ¬ HasCode f (.E 60) ∧ ¬ HasCode f (.E 61) := by
  have h : (loadRoot exWorldDec exEnv
      [(rootInvPath, [7]), (rootSidecarPath "sha512".toList, sidecarText "a0".toList)]).toOption.any
      (fun x => x.2.all (fun y => decide (y.code ≠ .E 58 ∧ y.code ≠ .E 60 ∧ y.code ≠ .E 61))) = true := by decide
  cases hl : loadRoot exWorldDec exEnv
      [(rootInvPath, [7]), (rootSidecarPath "sha512".toList, sidecarText "a0".toList)] with
  | error e => rw [hl] at h; cases h
  | ok x =>
    rw [hl] at h
    have h : x.2.all (fun y => decide (y.code ≠ .E 58 ∧ y.code ≠ .E 60 ∧ y.code ≠ .E 61)) = true := h
    rw [List.all_eq_true] at h
    refine ⟨x.1, x.2, rfl, ?_, ?_, ?_⟩ <;>
    · rintro ⟨y, hy, hc⟩
      have := h y hy
      rw [hc] at this
      exact absurd this (by decide)

/-! ## C24 -/

/-- What the theorems assume about encoding and decoding inventories: an encoded inventory decodes to the same
values, the maps in any order and the time stamps without fractions of a second; an empty file does not decode. -/
structure Codec (w : World) : Prop where
  roundTrip : ∀ inv : Inv, FixKeys inv → (mkeys inv.versions).Nodup → MapKeysOk inv →
    ∃ r, w.dec (w.enc inv) = some r ∧ Reordered (rawOf (stampInv w.time inv)) r
  empty : w.dec [] = none

/-- digests are non-empty strings of hex digits -/
def HexHash (w : World) : Prop :=
  ∀ alg h b, w.hash alg = some h → h b ≠ [] ∧ ∀ c ∈ h b, isHexChar c = true

/-- Two inventories with the same contents, maps in any order. -/
structure SameInv (a b : Inv) : Prop where
  id : a.id = b.id
  spec : a.spec = b.spec
  digestAlg : a.digestAlg = b.digestAlg
  head : a.head = b.head
  contentDirectory : a.contentDirectory = b.contentDirectory
  padding : a.paddingLength = b.paddingLength
  manifest : a.manifest.Perm b.manifest
  versionKeys : (mkeys a.versions).Perm (mkeys b.versions)
  versions : ∀ k v, (k, v) ∈ a.versions → ∃ w, (k, w) ∈ b.versions ∧ SameVersion v w
  fixity : ∀ alg m, (alg, m) ∈ a.fixity → ∃ m', (alg, m') ∈ b.fixity ∧ m.Perm m'
  fixity' : ∀ alg m', (alg, m') ∈ b.fixity → ∃ m, (alg, m) ∈ a.fixity ∧ m.Perm m'

/-- no path of the inventory is empty -/
structure NoEmptyPath (inv : Inv) : Prop where
  states : ∀ v ver d ps, (v, ver) ∈ inv.versions → (d, ps) ∈ ver.state → [] ∉ ps
  manifest : ∀ d ps, (d, ps) ∈ inv.manifest → [] ∉ ps
  fixity : ∀ a m d ps, (a, m) ∈ inv.fixity → (d, ps) ∈ m → [] ∉ ps

theorem stampInv_keys (f : Str → Str) (inv : Inv) : mkeys (stampInv f inv).versions = mkeys inv.versions := by
  simp [stampInv, mkeys, List.map_map, Function.comp_def]

theorem finalize_stored {env : Env} {w : World} {inv : Inv} {r : RawInv}
    (hr : Reordered (rawOf (stampInv w.time inv)) r) (hn : NoEmptyPath inv) : ∃ x, finalize env r = .ok x := by
  have hvm : ∀ v, r.vm v = {} := fun v => (hr.vm v).symm
  refine C40_no_crash_partial env r hr.headNil.symm (fun v ver _ => by rw [hvm]; exact ⟨rfl, rfl, rfl⟩) ?_ ?_ ?_
  · intro v ver d ps hv hd hp
    obtain ⟨v0, hv0, _, _, _, _, hst⟩ := hr.versions' v ver hv
    simp only [rawOf, stampInv, List.mem_map, Prod.mk.injEq] at hv0
    obtain ⟨e, he, rfl, rfl⟩ := hv0
    exact hn.states e.1 e.2 d ps he (hst.mem_iff.2 hd) hp
  · intro d ps hd hp
    exact hn.manifest d ps (hr.manifest.mem_iff.2 hd) hp
  · intro a m d ps ha hd hp
    obtain ⟨m0, h0, hpm⟩ := hr.fixity' a m ha
    exact hn.fixity a m0 d ps h0 (hpm.mem_iff.2 hd) hp

theorem finalize_inv {env : Env} {r : RawInv} {x : Inv × List Fnd} (h : finalize env r = .ok x) :
    x.1 = { r.inv with fixityAlgs := addFixityAlgs r.inv, paddingLength := computedPadding r.inv } := by
  unfold finalize at h
  obtain ⟨a, _, h⟩ := res_bind_eq_ok.1 h
  obtain ⟨b, _, h⟩ := res_bind_eq_ok.1 h
  cases h; rfl

/-- Loading an inventory the program has stored together with its sidecar. -/
theorem load_stored {w : World} (hc : Codec w) (hx : HexHash w) {env : Env} {fs : FS} {inv : Inv} {f : Bytes → Str}
    (hk : FixKeys inv) (hvk : (mkeys inv.versions).Nodup) (hmk : MapKeysOk inv) (hne : NoEmptyPath inv) {p : Nat}
    (hu : Uniform p (mkeys inv.versions)) (hp : inv.paddingLength = p) (hv : inv.versions ≠ [])
    (hf : w.hash inv.digestAlg = some f) (h1 : mget fs rootInvPath = some (w.enc inv))
    (h2 : mget fs (rootSidecarPath inv.digestAlg) = some (sidecarText (f (w.enc inv)))) :
    ∃ i fnd, loadRoot w env fs = .ok (i, fnd) ∧ SameInv (stampInv w.time inv) i ∧ ¬ HasCode fnd (.E 58) ∧
      ¬ HasCode fnd (.E 60) ∧ ¬ HasCode fnd (.E 61) := by
  obtain ⟨r, hd, hr⟩ := hc.roundTrip inv hk hvk hmk
  obtain ⟨x, hxf⟩ := finalize_stored (env := env) hr hne
  have halg : r.inv.digestAlg = inv.digestAlg := hr.digestAlg.symm
  have hst := sidecarText_ok (hx _ f (w.enc inv) hf).1 (hx _ f (w.enc inv) hf).2
  have hs : sidecarFnd w fs (rootSidecarPath r.inv.digestAlg) r.inv.digestAlg (w.enc inv) = .ok [] := by
    unfold sidecarFnd
    rw [halg, h2]
    simp only [sidecarMatch_iff.2 hst, hf]
    rw [if_pos trivial]
  have hl : loadRoot w env fs = .ok ({ x.1 with modified := false, writeable := false }, x.2) := by
    unfold loadRoot
    simp only [h1, hd, hxf, res_bind_ok, hs, List.append_nil]
  have hns := noSide_finalize hxf
  refine ⟨_, _, hl, ?_, not_hasCode_of_noSide hns (by decide), not_hasCode_of_noSide hns (by decide),
    not_hasCode_of_noSide hns (by decide)⟩
  have hkeys : (mkeys inv.versions).Perm (mkeys r.inv.versions) := by
    have := hr.versionKeys
    rw [show (rawOf (stampInv w.time inv)).inv.versions = (stampInv w.time inv).versions from rfl, stampInv_keys] at this
    exact this
  have hur : Uniform p (mkeys r.inv.versions) := fun k hk => hu k (hkeys.mem_iff.2 hk)
  have hpad : computedPadding r.inv = p := by
    rw [computedPadding_uniform hur, if_neg]
    intro h0
    rw [h0] at hkeys
    have := hkeys.length_eq
    simp [mkeys] at this
    exact hv this
  rw [finalize_inv hxf]
  exact {
    id := hr.id
    spec := hr.spec
    digestAlg := hr.digestAlg
    head := hr.head
    contentDirectory := hr.contentDirectory
    padding := by show inv.paddingLength = computedPadding r.inv; rw [hp, hpad]
    manifest := hr.manifest
    versionKeys := hr.versionKeys
    versions := hr.versions
    fixity := hr.fixity
    fixity' := hr.fixity' }

/-- **C24, full statement** (false): after every completed session that changed something, root inventory and
inventory of the head version are the same bytes, both match their sidecars, and loading gives back the inventory
that was in memory. -/
def C24_full : Prop :=
  ∀ (w : World) (env : Env) (fs : FS) (inv : Inv) (n : Nat) (s : Session), Codec w → HexHash w → WF inv n →
    FixKeys inv → NoEmptyPath inv → inv.paddingLength = 0 → (session w inv s).err = none →
    (session w inv s).obj.inv.modified = true →
    ∃ i f, loadRoot w env (applyOps fs (session w inv s).obj.trace) = .ok (i, f) ∧ SameInv (session w inv s).obj.inv i

theorem Good.facts {w : World} {U : Str → Str → Prop} {inv0 : Inv} {lo : Nat} {o : Obj} (hlo : 0 < lo)
    (h : Good w U inv0 lo o) (hk : FixKeys inv0) : FixKeys o.inv ∧ (mkeys o.inv.versions).Nodup ∧ MapKeysOk o.inv ∧
      o.inv.versions ≠ [] ∧ ∃ n, o.inv.head = verName o.inv.paddingLength (n : Nat) := by
  obtain ⟨n, hn, hle⟩ := h.wf
  obtain ⟨ops, hops⟩ := h.run
  refine ⟨hk.run hops, hn.1.nodup, hn.2, ?_, n, hn.1.head_eq (by omega)⟩
  intro h0
  obtain ⟨old, hold⟩ := hn.1.head_version (by omega)
  rw [h0] at hold; cases hold

/-- **C24, files.** After every completed session that changed something, the root inventory and the inventory of
the head version are the same bytes — the encoded inventory — and each has a sidecar with its digest. -/
theorem C24_stored_files {w : World} {fs : FS} {inv : Inv} {n : Nat} {s : Session} (hwf : WF inv n)
    (he : (session w inv s).err = none) (hm : (session w inv s).obj.inv.modified = true) :
    ∃ hash, w.hash (session w inv s).obj.inv.digestAlg = some hash ∧
      let i := (session w inv s).obj.inv
      let fs' := applyOps fs (session w inv s).obj.trace
      mget fs' rootInvPath = some (w.enc i) ∧ mget fs' (verInvPath i.head) = some (w.enc i) ∧
      mget fs' (rootSidecarPath i.digestAlg) = some (sidecarText (hash (w.enc i))) ∧
      mget fs' (verSidecarPath i.head i.digestAlg) = some (sidecarText (hash (w.enc i))) := by
  obtain ⟨f, t0, h1, h2, h3, h4, h5⟩ := session_stored hwf he hm
  refine ⟨f, h1, ?_⟩
  obtain ⟨k, hk, hle⟩ := h5.wf
  have hh : (session w inv s).obj.inv.head.head? = some 'v' := by
    rw [h2, hk.1.head_eq (by omega)]; exact verName_head _ _
  have := stored_files (w := w) (f := f) (t0 := t0) (exts := s.exts) (fs := fs) hh
  simp only at this ⊢
  rw [← h3, ← h4] at this
  exact ⟨this.1, this.2.2.1, this.2.1, this.2.2.2⟩

/-- **C24, the part that holds**: loading gives back the inventory that was in memory, up to fractions of seconds
in the time stamps, provided no path is empty and the version names fit the padding. -/
theorem C24_stored_inventories_load_partial {w : World} (hc : Codec w) (hx : HexHash w) {env : Env} {fs : FS}
    {inv : Inv} {n : Nat} {s : Session} (hwf : WF inv n) (hk : FixKeys inv) {p : Nat} (hp : inv.paddingLength = p)
    (he : (session w inv s).err = none) (hm : (session w inv s).obj.inv.modified = true)
    (hne : NoEmptyPath (session w inv s).obj.inv) (hu : Uniform p (mkeys (session w inv s).obj.inv.versions)) :
    ∃ i f, loadRoot w env (applyOps fs (session w inv s).obj.trace) = .ok (i, f) ∧
      SameInv (stampInv w.time (session w inv s).obj.inv) i ∧
      ¬ HasCode f (.E 58) ∧ ¬ HasCode f (.E 60) ∧ ¬ HasCode f (.E 61) := by
  obtain ⟨f, t0, h1, h2, h3, h4, h5⟩ := session_stored hwf he hm
  obtain ⟨hash, hh, g1, _, g3, _⟩ := C24_stored_files (fs := fs) hwf he hm
  obtain ⟨k1, k2, k3, k4, _⟩ := h5.facts (by omega) hk
  rw [← h2] at k1 k2 k3 k4
  exact load_stored hc hx k1 k2 k3 hne hu (by rw [h2, h5.pad, hp]) k4 hh g1 g3

/-- **C24 fails** if an empty logical path was added: the object that was just stored cannot be loaded any more. -/
theorem C24_full_fails_empty_path {w : World} (hc : Codec w) {env : Env} {fs : FS} {inv : Inv} {n : Nat}
    {s : Session} (hwf : WF inv n) (hk : FixKeys inv) (he : (session w inv s).err = none)
    (hm : (session w inv s).obj.inv.modified = true) {v : Str} {ver : Version} {d : Str} {ps : List Str}
    (h1 : (v, ver) ∈ (session w inv s).obj.inv.versions) (h2 : (d, ps) ∈ ver.state) (h3 : [] ∈ ps) :
    ∃ e, loadRoot w env (applyOps fs (session w inv s).obj.trace) = .error e := by
  obtain ⟨f, t0, g1, g2, g3, g4, g5⟩ := session_stored hwf he hm
  obtain ⟨hash, hh, q1, _⟩ := C24_stored_files (fs := fs) hwf he hm
  obtain ⟨k1, k2, k3, k4, _⟩ := g5.facts (by omega) hk
  rw [← g2] at k1 k2 k3
  obtain ⟨r, hd, hr⟩ := hc.roundTrip _ k1 k2 k3
  have hmem : (v, { ver with created := w.time ver.created }) ∈
      (rawOf (stampInv w.time (session w inv s).obj.inv)).inv.versions := by
    simp only [rawOf, stampInv, List.mem_map]
    exact ⟨(v, ver), h1, rfl⟩
  obtain ⟨ver', hv', _, _, _, _, hst⟩ := hr.versions _ _ hmem
  obtain ⟨k, hk', hle⟩ := g5.wf
  have hnum : ∃ m : Int, verNumber v = some m := by
    have hv : v ∈ mkeys (sessionOpen w inv s).obj.inv.versions := by rw [← g2]; exact mem_mkeys_of_mem h1
    obtain ⟨j, hj, _, rfl⟩ := hk'.1.mem_keys.1 hv
    exact ⟨_, (nameOf_verName _ hj).verNumber⟩
  obtain ⟨m, hnum⟩ := hnum
  obtain ⟨e, hfe⟩ := (C40_crash_iff env r).2 (Or.inr (Or.inr (Or.inl ⟨v, ver', hv', by rw [hnum]; simp,
    Or.inr ⟨d, ps, hst.mem_iff.1 h2, h3⟩⟩)))
  refine ⟨e, ?_⟩
  unfold loadRoot
  simp only [q1, hd, hfe]
  rfl

/-! ### A world meeting the assumptions -/

instance : Countable Char := Function.Injective.countable (f := Char.toNat) (fun a b h => by
  rw [← Char.ofNat_toNat a, h, Char.ofNat_toNat])

instance : Countable Version := Function.Injective.countable
  (f := fun v : Version => (v.created, v.message, v.userName, v.userAddress, v.state)) (fun a b h => by
    cases a; cases b; simpa using h)

instance : Countable Inv := Function.Injective.countable
  (f := fun i : Inv => (i.id, i.spec, i.digestAlg, i.head, i.contentDirectory, i.manifest, i.versions, i.fixity,
    i.fixityAlgs, i.paddingLength, i.modified, i.writeable)) (fun a b h => by
    cases a; cases b; simpa using h)

noncomputable def exCode (inv : Inv) : Nat := Classical.choose (exists_injective_nat Inv) inv

theorem exCode_injective : Function.Injective exCode := Classical.choose_spec (exists_injective_nat Inv)

/-- an encoding of inventories as bytes that satisfies every assumption; `time` is arbitrary -/
noncomputable def exEnc (inv : Inv) : Bytes := List.replicate (exCode inv) 0 ++ [1]

open Classical in
noncomputable def exDec (time : Str → Str) (b : Bytes) : Option RawInv :=
  if h : ∃ inv, exEnc inv = b then some (rawOf (stampInv time (Classical.choose h))) else none

noncomputable def codecWorld (time : Str → Str) : World :=
  { exWorld with enc := exEnc, dec := exDec time, time := time }

theorem exEnc_injective : Function.Injective exEnc := by
  intro a b h
  have := congrArg List.length h
  simp only [exEnc, List.length_append, List.length_replicate, List.length_singleton] at this
  exact exCode_injective (by omega)

theorem Reordered.refl (r : RawInv) : Reordered r r where
  id := rfl
  spec := rfl
  digestAlg := rfl
  head := rfl
  contentDirectory := rfl
  headNil := rfl
  headErr := rfl
  manifestNil := rfl
  versionsNil := rfl
  vm := fun _ => rfl
  manifest := List.Perm.refl _
  versionKeys := List.Perm.refl _
  versions := fun _ v h => ⟨v, h, rfl, rfl, rfl, rfl, List.Perm.refl _⟩
  versions' := fun _ v h => ⟨v, h, rfl, rfl, rfl, rfl, List.Perm.refl _⟩
  fixity := fun _ m h => ⟨m, h, List.Perm.refl _⟩
  fixity' := fun _ m h => ⟨m, h, List.Perm.refl _⟩
  fixityKeys := List.Perm.refl _

theorem exDec_enc (time : Str → Str) (inv : Inv) : exDec time (exEnc inv) = some (rawOf (stampInv time inv)) := by
  unfold exDec
  rw [dif_pos ⟨inv, rfl⟩]
  have := Classical.choose_spec (p := fun i => exEnc i = exEnc inv) ⟨inv, rfl⟩
  rw [exEnc_injective this]

theorem codecWorld_codec (time : Str → Str) : Codec (codecWorld time) where
  roundTrip := fun inv _ _ _ => ⟨_, exDec_enc time inv, Reordered.refl _⟩
  empty := by
    show exDec time [] = none
    unfold exDec
    rw [dif_neg]
    rintro ⟨inv, h⟩
    simp [exEnc] at h

theorem codecWorld_hex (time : Str → Str) : HexHash (codecWorld time) := by
  intro alg h b hh
  have hh : (if alg = "sha512".toList then some (fun b : Bytes => 'a' :: List.replicate b.length '0') else none) =
      some h := hh
  split at hh
  · cases hh
    refine ⟨by simp, ?_⟩
    intro c hc
    rcases List.mem_cons.1 hc with rfl | hc
    · decide
    · rw [(List.mem_replicate.1 hc).2]; decide
  · cases hh

theorem exInv_fixKeys : FixKeys exInv := ⟨by decide, by decide, fun a m h => by cases h⟩

/-- time stamps are kept, or lost -/
noncomputable def exKeep : World := codecWorld (fun t => t)
noncomputable def exLose : World := codecWorld (fun _ => [])

/-- the inventory after the example session -/
def exInv3 : Inv := (session exWorld exInv (exSession "c/d".toList)).obj.inv

theorem exKeep_ok : (session exKeep exInv (exSession "c/d".toList)).err = none ∧
    (session exKeep exInv (exSession "c/d".toList)).obj.inv = exInv3 := by
  constructor
  · decide
  · decide

theorem exLose_ok : (session exLose exInv (exSession "c/d".toList)).err = none ∧
    (session exLose exInv (exSession "c/d".toList)).obj.inv = exInv3 := by
  constructor
  · decide
  · decide

theorem noEmptyPath_of {inv : Inv} (h1 : ∀ e ∈ inv.versions, ∀ s ∈ e.2.state, [] ∉ s.2)
    (h2 : ∀ e ∈ inv.manifest, [] ∉ e.2) (h3 : ∀ e ∈ inv.fixity, ∀ s ∈ e.2, [] ∉ s.2) : NoEmptyPath inv :=
  ⟨fun v ver d ps hv hd => h1 (v, ver) hv (d, ps) hd, fun d ps hd => h2 (d, ps) hd,
   fun a m d ps ha hd => h3 (a, m) ha (d, ps) hd⟩

theorem exInv3_noEmpty : NoEmptyPath exInv3 := noEmptyPath_of (by decide) (by decide) (by decide)
theorem exInv_noEmpty : NoEmptyPath exInv := noEmptyPath_of (by decide) (by decide) (by decide)

theorem exInv3_uniform : Uniform 0 (mkeys exInv3.versions) := by
  intro k hk
  have e : mkeys exInv3.versions = ["v2".toList, "v1".toList, "v3".toList] := by decide
  rw [e] at hk
  simp only [List.mem_cons, List.not_mem_nil, or_false] at hk
  rcases hk with rfl | rfl | rfl
  · exact ⟨2, by decide, by simp, by decide⟩
  · exact ⟨1, by decide, by simp, by decide⟩
  · exact ⟨3, by decide, by simp, by decide⟩

/-- the session adding `c/d` is loaded back exactly if time stamps have whole seconds -/
example (env : Env) (fs : FS) :
    ∃ i f, loadRoot exKeep env (applyOps fs (session exKeep exInv (exSession "c/d".toList)).obj.trace) = .ok (i, f) ∧
      SameInv (stampInv (fun t => t) exInv3) i := by
  obtain ⟨i, f, h1, h2, _⟩ := C24_stored_inventories_load_partial (codecWorld_codec _) (codecWorld_hex _) (env := env)
    (fs := fs) (inv := exInv) (n := 2) (s := exSession "c/d".toList) (p := 0) exInv_wf2 exInv_fixKeys rfl exKeep_ok.1
    (by rw [show (session (codecWorld fun t => t) exInv (exSession "c/d".toList)).obj.inv = exInv3 from exKeep_ok.2]
        decide)
    (by rw [show (session (codecWorld fun t => t) exInv (exSession "c/d".toList)).obj.inv = exInv3 from exKeep_ok.2]
        exact exInv3_noEmpty)
    (by rw [show (session (codecWorld fun t => t) exInv (exSession "c/d".toList)).obj.inv = exInv3 from exKeep_ok.2]
        exact exInv3_uniform)
  rw [show (session (codecWorld fun t => t) exInv (exSession "c/d".toList)).obj.inv = exInv3 from exKeep_ok.2] at h2
  exact ⟨i, f, h1, h2⟩

/-- **C24 fails**: fractions of seconds are lost. -/
theorem C24_full_fails : ¬ C24_full := by
  intro hf
  have e : (session (codecWorld fun _ => []) exInv (exSession "c/d".toList)).obj.inv = exInv3 := exLose_ok.2
  obtain ⟨i, f, h1, h2⟩ := hf (codecWorld fun _ => []) exEnv [] exInv 2 (exSession "c/d".toList) (codecWorld_codec _)
    (codecWorld_hex _) exInv_wf2 exInv_fixKeys exInv_noEmpty rfl exLose_ok.1 (by rw [e]; decide)
  obtain ⟨i', f', h1', h2', _⟩ := C24_stored_inventories_load_partial (codecWorld_codec fun _ => [])
    (codecWorld_hex _) (env := exEnv) (fs := []) (inv := exInv) (n := 2) (s := exSession "c/d".toList) (p := 0)
    exInv_wf2 exInv_fixKeys rfl exLose_ok.1 (by rw [e]; decide) (by rw [e]; exact exInv3_noEmpty)
    (by rw [e]; exact exInv3_uniform)
  rw [h1] at h1'
  cases h1'
  rw [e] at h2 h2'
  have hk : (mkeys exInv3.versions).Nodup := by decide
  obtain ⟨v, hv, hvc⟩ : ∃ v, ("v1".toList, v) ∈ exInv3.versions ∧ v.created ≠ [] := by
    have : ∃ e ∈ exInv3.versions, e.1 = "v1".toList ∧ e.2.created ≠ [] := by decide
    obtain ⟨e, he, h1, h2⟩ := this
    exact ⟨e.2, by rw [← h1]; exact he, h2⟩
  obtain ⟨a, ha, hsa⟩ := h2.versions _ _ hv
  obtain ⟨b, hb, hsb⟩ := h2'.versions "v1".toList { v with created := [] } (by
    simp only [stampInv, List.mem_map]
    exact ⟨("v1".toList, v), hv, rfl⟩)
  have hki : (mkeys i.versions).Nodup := h2.versionKeys.nodup_iff.1 hk
  have hab : a = b := by
    have h3 := mget_of_mem hki ha
    rw [mget_of_mem hki hb] at h3
    cases h3; rfl
  subst hab
  exact hvc (hsa.1.trans hsb.1.symm)

/-- an empty name meets the hypotheses of `C24_full_fails_empty_path` -/
example : ∃ e, loadRoot exKeep exEnv (applyOps [] (session exKeep exInv (exSession [])).obj.trace) = .error e := by
  have e : (session exKeep exInv (exSession [])).obj.inv = (session exWorld exInv (exSession [])).obj.inv := by decide
  have hm : ∃ e ∈ (session exWorld exInv (exSession [])).obj.inv.versions, ∃ s ∈ e.2.state, [] ∈ s.2 := by decide
  obtain ⟨⟨v, ver⟩, hv, ⟨d, ps⟩, hd, hp⟩ := hm
  exact C24_full_fails_empty_path (codecWorld_codec _) (inv := exInv) (n := 2) (s := exSession []) exInv_wf2
    exInv_fixKeys (by decide) (by rw [show (session (codecWorld fun t => t) exInv (exSession [])).obj.inv = _ from e]; decide)
    (by rw [show (session (codecWorld fun t => t) exInv (exSession [])).obj.inv = _ from e]; exact hv) hd hp

/-! ## C22 -/

/-- **C22, full statement** (false): whatever a crash leaves of a session's writes, the object loads and shows
the old or the new versions. -/
def C22_full : Prop :=
  ∀ (w : World) (env : Env) (fs : FS) (inv : Inv) (n : Nat) (s : Session) (f : List Fnd) (t' : List FsOp),
    Codec w → HexHash w → WF inv n → FixKeys inv → ValidComp inv.contentDir → SafeNames w s →
    loadRoot w env fs = .ok (inv, f) → (session w inv s).err = none → NoEmptyPath (session w inv s).obj.inv →
    CrashPrefix t' (session w inv s).obj.trace →
    ∃ i g, loadRoot w env (applyOps fs t') = .ok (i, g) ∧
      ((mkeys i.versions).Perm (mkeys inv.versions) ∨
        (mkeys i.versions).Perm (mkeys (session w inv s).obj.inv.versions))

/-- **C22 fails** for every session that changes something: a crash right after the root inventory was opened for
writing leaves an object that cannot be loaded. -/
theorem C22_full_fails_torn {w : World} (hc : w.dec [] = none) {env : Env} {fs : FS} {inv : Inv} {n : Nat}
    {s : Session} (hwf : WF inv n) (he : (session w inv s).err = none)
    (hm : (session w inv s).obj.inv.modified = true) :
    ∃ t', CrashPrefix t' (session w inv s).obj.trace ∧ ∃ e, loadRoot w env (applyOps fs t') = .error e := by
  obtain ⟨f, t0, g1, g2, g3, g4, g5⟩ := session_stored hwf he hm
  refine ⟨(sessionOpen w inv s).obj.trace ++ [.create rootInvPath], ?_, ?_⟩
  · rw [g4]
    exact (CrashPrefix.next _ (CrashPrefix.stop _)).append_left _
  · refine ⟨.error "cannot unmarshal json", ?_⟩
    unfold loadRoot
    rw [applyOps_append]
    have : mget (applyOps (applyOps fs (sessionOpen w inv s).obj.trace) [.create rootInvPath]) rootInvPath = some [] := by
      simp [applyOps, FsOp.apply]
    simp only [this, hc]

/-- loading depends on the root inventory and its sidecars only -/
theorem loadRoot_congr {w : World} {env : Env} {fs fs' : FS} (h1 : mget fs' rootInvPath = mget fs rootInvPath)
    (h2 : ∀ alg, mget fs' (rootSidecarPath alg) = mget fs (rootSidecarPath alg)) :
    loadRoot w env fs' = loadRoot w env fs := by
  unfold loadRoot sidecarFnd
  simp only [h1, h2]

theorem crash_writeFile {t' : List FsOp} {p : Str} {b : Bytes} (h : CrashPrefix t' (writeFile p b)) :
    t' = [] ∨ t' = [.create p] ∨ (∃ b1 b2, b = b1 ++ b2 ∧ t' = [.create p, .append p b1]) := by
  unfold writeFile at h
  cases h with
  | stop => exact Or.inl rfl
  | next _ h =>
    cases h with
    | stop => exact Or.inr (Or.inl rfl)
    | torn _ b1 b2 _ => exact Or.inr (Or.inr ⟨b1, b2, rfl, rfl⟩)
    | next _ h => cases h with
      | stop => exact Or.inr (Or.inr ⟨b, [], by simp, rfl⟩)

/-- **C22, the part that holds**: at every crash point of a completed session whose names stay inside the content
directory, either the object loads exactly as before, or the root inventory is a proper initial part of the new one
(this one point is not safe), or the root inventory is the complete new one and the object loads with it.  Missing:
the second case, see `C22_full_fails_torn`. -/
theorem C22_crash_points_partial {w : World} (hc : Codec w) {env : Env} {fs : FS} {inv : Inv} {n : Nat} {s : Session}
    {t' : List FsOp} (hwf : WF inv n) (hk : FixKeys inv) (hcd : ValidComp inv.contentDir) (hs : SafeNames w s)
    (he : (session w inv s).err = none) (hm : (session w inv s).obj.inv.modified = true)
    (hne : NoEmptyPath (session w inv s).obj.inv) (ht : CrashPrefix t' (session w inv s).obj.trace) :
    loadRoot w env (applyOps fs t') = loadRoot w env fs ∨
    (∃ b1 b2, b2 ≠ [] ∧ w.enc (session w inv s).obj.inv = b1 ++ b2 ∧
      mget (applyOps fs t') rootInvPath = some b1) ∨
    (mget (applyOps fs t') rootInvPath = some (w.enc (session w inv s).obj.inv) ∧
      ∃ i g, loadRoot w env (applyOps fs t') = .ok (i, g) ∧ i.head = (session w inv s).obj.inv.head ∧
        (mkeys (session w inv s).obj.inv.versions).Perm (mkeys i.versions)) := by
  by_cases hroot : ∀ op ∈ t', op.path ≠ rootInvPath
  · left
    exact loadRoot_congr
      (C21_crash_before_root_harmless_partial hwf hcd hs ht hroot (Or.inl rfl))
      (fun alg => C21_crash_before_root_harmless_partial hwf hcd hs ht hroot (Or.inr (Or.inl ⟨alg, rfl⟩)))
  · right
    obtain ⟨f, t0, g1, g2, g3, g4, g5⟩ := session_stored hwf he hm
    obtain ⟨k1, k2, k3, k4, _⟩ := g5.facts (by omega) hk
    rw [← g2] at k1 k2 k3 k4
    have hopen : ∀ u, CrashPrefix u (sessionOpen w inv s).obj.trace → ∀ op ∈ u, op.path ≠ rootInvPath := by
      intro u hu op hop
      obtain ⟨op', h1, h2⟩ := hu.path hop
      rw [← h2]
      exact newPath_ne_old hcd (fun p a i hu hi => hs (p, a) hu i hi) (sessionOpen_trace hwf s op' h1) (Or.inl rfl)
    rw [g4] at ht
    -- what loading does once the new root inventory is complete
    have hload : mget (applyOps fs t') rootInvPath = some (w.enc (session w inv s).obj.inv) →
        ∃ i g, loadRoot w env (applyOps fs t') = .ok (i, g) ∧ i.head = (session w inv s).obj.inv.head ∧
          (mkeys (session w inv s).obj.inv.versions).Perm (mkeys i.versions) := by
      intro h1
      obtain ⟨r, hd, hr⟩ := hc.roundTrip _ k1 k2 k3
      obtain ⟨x, hx⟩ := finalize_stored (env := env) hr hne
      have halg : r.inv.digestAlg = (session w inv s).obj.inv.digestAlg := hr.digestAlg.symm
      obtain ⟨g, hg⟩ : ∃ g, sidecarFnd w (applyOps fs t') (rootSidecarPath r.inv.digestAlg) r.inv.digestAlg
          (w.enc (session w inv s).obj.inv) = .ok g := by
        unfold sidecarFnd
        rw [halg, g1]
        split
        · exact ⟨_, rfl⟩
        · split
          · exact ⟨_, rfl⟩
          · exact ⟨_, rfl⟩
      refine ⟨{ x.1 with modified := false, writeable := false }, x.2 ++ g, ?_, ?_, ?_⟩
      · unfold loadRoot
        simp only [h1, hd, hx, res_bind_ok, hg]
      · rw [finalize_inv hx]; exact hr.head.symm
      · rw [finalize_inv hx]
        have := hr.versionKeys
        rw [show (rawOf (stampInv w.time (session w inv s).obj.inv)).inv.versions =
          (stampInv w.time (session w inv s).obj.inv).versions from rfl, stampInv_keys] at this
        exact this
    rcases CrashPrefix.append ht with ht | ⟨u, hu, rfl⟩
    · exact absurd (hopen _ ht) hroot
    · have hu' : CrashPrefix u (writeFile rootInvPath (w.enc (session w inv s).obj.inv) ++
          (writeFile (rootSidecarPath (session w inv s).obj.inv.digestAlg)
            (sidecarText (f (w.enc (session w inv s).obj.inv))) ++ extWrites s.exts)) := by
        rw [← List.append_assoc]; exact hu
      rcases CrashPrefix.append hu' with h1 | ⟨v, hv, rfl⟩
      · rcases crash_writeFile h1 with rfl | rfl | ⟨b1, b2, hb, rfl⟩
        · rw [List.append_nil] at hroot
          exact absurd (hopen _ (CrashPrefix.refl _)) hroot
        · by_cases h0 : w.enc (session w inv s).obj.inv = []
          · right
            have hmg : mget (applyOps fs ((sessionOpen w inv s).obj.trace ++ [.create rootInvPath])) rootInvPath =
                some (w.enc (session w inv s).obj.inv) := by
              rw [applyOps_append, h0]; simp [applyOps, FsOp.apply]
            exact ⟨hmg, hload hmg⟩
          · left
            refine ⟨[], w.enc (session w inv s).obj.inv, h0, rfl, ?_⟩
            rw [applyOps_append]; simp [applyOps, FsOp.apply]
        · have hmg : mget (applyOps fs ((sessionOpen w inv s).obj.trace ++
              [.create rootInvPath, .append rootInvPath b1])) rootInvPath = some b1 := by
            rw [applyOps_append]; exact mget_writeFile _ _ _
          by_cases h0 : b2 = []
          · right
            rw [h0, List.append_nil] at hb
            have hmg : _ = some (w.enc (session w inv s).obj.inv) := hmg.trans (by rw [hb])
            exact ⟨hmg, hload hmg⟩
          · exact Or.inl ⟨b1, b2, h0, hb, hmg⟩
      · right
        have hmg : mget (applyOps fs ((sessionOpen w inv s).obj.trace ++
            (writeFile rootInvPath (w.enc (session w inv s).obj.inv) ++ v))) rootInvPath =
            some (w.enc (session w inv s).obj.inv) := by
          rw [applyOps_append, applyOps_append, mget_applyOps_ne, mget_writeFile]
          intro op hop
          obtain ⟨op', h1, h2⟩ := hv.path hop
          rw [← h2]
          rcases List.mem_append.1 h1 with h1 | h1
          · rw [mem_writeFile_path h1]; exact (root_ne_sidecar _).symm
          · obtain ⟨n, hn⟩ := mem_extWrites_path h1
            rw [hn]; exact ne_of_head (head_ext n) head_rootInv (by decide)
        exact ⟨hmg, hload hmg⟩

/-- the files of an object with the inventory `exInv` -/
noncomputable def exDisk : FS :=
  [(rootInvPath, exEnc exInv), (rootSidecarPath "sha512".toList, sidecarText ('a' :: List.replicate (exEnc exInv).length '0'))]

theorem exDisk_load : ∃ f, loadRoot exKeep exEnv exDisk = .ok (exInv, f) := by
  have h1 : (finalize exEnv (rawOf (stampInv (fun t => t) exInv))).toOption.any
      (fun x => decide ({ x.1 with modified := false, writeable := false } = exInv)) = true := by decide
  cases hf : finalize exEnv (rawOf (stampInv (fun t => t) exInv)) with
  | error e => rw [hf] at h1; cases h1
  | ok x =>
    rw [hf] at h1
    have h1 : { x.1 with modified := false, writeable := false } = exInv := by simpa [Except.toOption] using h1
    have hst := sidecarText_ok (dg := 'a' :: List.replicate (exEnc exInv).length '0') (by simp)
      ((codecWorld_hex (fun t => t)) "sha512".toList _ (exEnc exInv) rfl).2
    have hs : sidecarFnd exKeep exDisk (rootSidecarPath "sha512".toList) "sha512".toList (exEnc exInv) = .ok [] := by
      unfold sidecarFnd
      have : mget exDisk (rootSidecarPath "sha512".toList) =
          some (sidecarText ('a' :: List.replicate (exEnc exInv).length '0')) := rfl
      rw [this]
      have hh : exKeep.hash "sha512".toList = some (fun b : Bytes => 'a' :: List.replicate b.length '0') := rfl
      simp only [sidecarMatch_iff.2 hst, hh]
      rw [if_pos trivial]
    refine ⟨x.2 ++ [], ?_⟩
    unfold loadRoot
    have h3 : mget exDisk rootInvPath = some (exEnc exInv) := rfl
    have h4 : exKeep.dec (exEnc exInv) = some (rawOf (stampInv (fun t => t) exInv)) := exDec_enc _ _
    simp only [h3, h4, hf, res_bind_ok]
    have h5 : (rawOf (stampInv (fun t => t) exInv)).inv.digestAlg = "sha512".toList := rfl
    rw [h5, hs, res_bind_ok, h1]

theorem exSession_safe {w : World} (hw : ∀ p a, w.manifestPath p a = .ok p) : SafeNames w (exSession "c/d".toList) := by
  intro x hx i hi
  have : x = ("c/d".toList, []) := by simpa [Session.uses, exSession, callsUses, Call.uses] using hx
  subst this
  rw [hw] at hi
  cases hi
  exact ⟨1, by decide⟩

theorem C22_full_fails : ¬ C22_full := by
  intro hf
  obtain ⟨f, hl⟩ := exDisk_load
  have hm : (session exKeep exInv (exSession "c/d".toList)).obj.inv.modified = true := by rw [exKeep_ok.2]; decide
  obtain ⟨t', h1, e, h2⟩ := C22_full_fails_torn (w := exKeep) (env := exEnv) (fs := exDisk)
    (codecWorld_codec _).empty exInv_wf2 exKeep_ok.1 hm
  obtain ⟨i, g, h3, _⟩ := hf exKeep exEnv exDisk exInv 2 (exSession "c/d".toList) f t' (codecWorld_codec _)
    (codecWorld_hex _) exInv_wf2 exInv_fixKeys exInv_contentDir (exSession_safe (fun _ _ => rfl)) hl exKeep_ok.1
    (by rw [exKeep_ok.2]; exact exInv3_noEmpty) h1
  rw [h2] at h3; cases h3

end Gocfl
