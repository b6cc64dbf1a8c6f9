import Verif.Props.ObjCheck
import Verif.Props.Compare

/-! # What the inventories of an accepted object have in common -/

namespace Gocfl

theorem GoodVersions.numNodup {inv : Inv} (G : GoodVersions inv) : ((mkeys inv.versions).filterMap verNumber).Nodup := by
  obtain ⟨N, hN⟩ := G.seq
  rw [hN.nodup_iff]
  refine List.Nodup.map ?_ List.nodup_range
  intro a b h
  have h : ((a + 1 : Nat) : Int) = ((b + 1 : Nat) : Int) := h
  omega

theorem GoodVersions.keysNodup {inv : Inv} (G : GoodVersions inv) : (mkeys inv.versions).Nodup := by
  have h := G.numNodup
  have : (mkeys inv.versions).filterMap verNumber = (mkeys inv.versions).map (fun k => (verNumber k).getD 0) := by
    rw [← List.filterMap_eq_map]
    apply List.filterMap_congr
    intro k hk
    obtain ⟨n, hn, _⟩ := G.num k hk
    simp [hn]
  rw [this] at h
  exact List.Nodup.of_map _ h

/-- The logical file `p` has digest `d` in version `v` of the inventory. -/
def FileAt (inv : Inv) (v p d : Str) : Prop := ∃ ver ps, (v, ver) ∈ inv.versions ∧ (d, ps) ∈ ver.state ∧ p ∈ ps

/-- The inventory `i` of version `v` tells the history up to this version as the root inventory does, apart from the
digests. -/
structure AgreesUpTo (inv : Inv) (v : Str) (i : Inv) : Prop where
  id : i.id = inv.id
  head : i.head = v
  alg : i.digestAlg = inv.digestAlg
  /-- its versions are those up to `v` -/
  versions : ∀ u, u ∈ mkeys i.versions ↔ u ∈ mkeys inv.versions ∧
    ∃ k n, verNumber u = some k ∧ verNumber v = some n ∧ k ≤ n
  metadata : ∀ u a b, (u, a) ∈ i.versions → (u, b) ∈ inv.versions →
    a.created = b.created ∧ a.message = b.message ∧ a.userName = b.userName ∧ a.userAddress = b.userAddress
  /-- with the same logical paths -/
  paths : ∀ u ∈ mkeys i.versions, ∀ p, (∃ d, FileAt i u p d) ↔ ∃ d, FileAt inv u p d

/-- The full claim: the inventories in the version folders of an object that validates tell the same history as the
root inventory. -/
def C77_full : Prop := ∀ (w : World) (env : Env) (plain : Bool) (blank : Inv) (fs : FS) (folder : Str) (F : List Fnd)
  (inv : Inv) (f : List Fnd) (v : Str) (i : Inv) (g : List Fnd),
  checkFolder w env plain blank fs folder = .ok F → NoErrors F → loadByFolder w env plain blank fs folder = .ok (inv, f) →
  v ∈ mkeys inv.versions → loadVersion w env (subFS fs folder) v = .ok (i, g) →
  AgreesUpTo inv v i ∧ ∀ u ∈ mkeys i.versions, ∀ p d, FileAt i u p d ↔ FileAt inv u p d

theorem versionInventories_noErrors {w : World} {env : Env} {plain : Bool} {fs : FS} {l : List Str}
    {vis : AMap Str Inv × List Fnd} (h : versionInventories w env plain fs l = .ok vis) (hn : NoErrors vis.2) {v : Str}
    (hv : v ∈ l) {i : Inv} {f : List Fnd} (hl : loadVersion w env fs v = .ok (i, f)) : NoErrors f := by
  induction l generalizing vis with
  | nil => simp at hv
  | cons u l ih =>
    rw [versionInventories] at h
    cases hb : mget fs (verInvPath u) with
    | none =>
      simp only [hb] at h
      cases plain with
      | false => simp at h
      | true =>
        simp only [if_true] at h
        obtain ⟨x, hx, h⟩ := res_bind_eq_ok.1 h
        cases h
        rcases List.mem_cons.1 hv with rfl | hv
        · obtain ⟨e, he⟩ := loadVersion_none (w := w) (env := env) hb
          rw [he] at hl; cases hl
        · exact ih hx (fun y hy => hn y (List.mem_cons_of_mem _ hy)) hv
    | some b =>
      simp only [hb] at h
      obtain ⟨y, hy, h⟩ := res_bind_eq_ok.1 h
      obtain ⟨x, hx, h⟩ := res_bind_eq_ok.1 h
      cases h
      rw [noErrors_append] at hn
      rcases List.mem_cons.1 hv with rfl | hv
      · rw [hy] at hl; cases hl; exact hn.1
      · exact ih hx hn.2 hv

/-- **C77, the part that holds**: in an object that validates, the inventory of each version has the id and digest
algorithm of the root inventory, that version as head, exactly the versions up to it, with the same metadata and
logical paths; and its content paths are files with the content of their digests.  Missing: the digests of the logical
paths. -/
theorem C77_inventories_agree_partial {w : World} {env : Env} {plain : Bool} {blank : Inv} {fs : FS} {folder : Str}
    {F : List Fnd} (h : checkFolder w env plain blank fs folder = .ok F) (hn : NoErrors F) {inv : Inv} {f : List Fnd}
    (hl : loadByFolder w env plain blank fs folder = .ok (inv, f)) {v : Str} (hv : v ∈ mkeys inv.versions) {i : Inv}
    {g : List Fnd} (hi : loadVersion w env (subFS fs folder) v = .ok (i, g)) :
    AgreesUpTo inv v i ∧ ∃ hash, w.hash i.digestAlg = some hash ∧ ∀ d m p, (d, m) ∈ i.manifest → p ∈ m →
      ∃ b, mget (subFS fs folder) p = some b ∧ hash b = toLower d := by
  obtain ⟨inv', f', g', hl', hr, hg, rfl⟩ := checkFolder_ok h hn
  rw [hl] at hl'; cases hl'
  obtain ⟨inv0, f0, hash, hl0, hhash, _⟩ := C75_accepted_content h hn
  rw [hl] at hl0; cases hl0
  generalize subFS fs folder = ofs at *
  simp only [noErrors_append] at hn
  obtain ⟨hnf, hnF, hng⟩ := hn
  obtain ⟨G, halg⟩ := loadRoot_good hr hnf
  obtain ⟨f1, vis, fm, f2, cd, f3, f4, f5, f6, f7, h1, hvv, hm, h2, hcd, h3, h4, h5, h6, h7, rfl⟩ :=
    checkFilesAndVersions_ok hg
  simp only [noErrors_append] at hng
  obtain ⟨⟨⟨⟨⟨⟨⟨⟨⟨n1, nv⟩, n2⟩, n3⟩, n3'⟩, n3''⟩, n4⟩, n5⟩, n6⟩, n7⟩ := hng
  have hvs := (G.mem v).2 hv
  have hin : (v, i) ∈ vis.1 := (mem_versionInventories hvv v i).2 ⟨hvs, g, hi⟩
  obtain ⟨Gi, hialg⟩ := loadRoot_good hi (versionInventories_noErrors hvv nv hvs hi)
  -- comparison with the root
  obtain ⟨c, hc, hcn⟩ := collect_noErrors h4 n4 hin
  unfold crossFnd at hc
  obtain ⟨c', hc', hc⟩ := res_bind_eq_ok.1 hc
  cases hc
  simp only [noErrors_append] at hcn
  obtain ⟨⟨⟨e1, e2⟩, e3⟩, e4⟩ := hcn
  have hid : inv.id = i.id := by
    by_contra hne
    rw [if_pos hne] at e1
    exact absurd (List.mem_singleton.2 rfl) (not_err_mem e1)
  have hhead0 : i.head ≠ [] := by
    intro h0
    obtain ⟨n, hn, _⟩ := Gi.num _ Gi.head
    rw [h0] at hn
    exact absurd hn (by simp [verNumber, trimLeft, atoi, isDigits])
  have hhead : i.head = v := by
    by_contra hne
    rw [if_pos ⟨hhead0, hne⟩] at e2
    exact absurd (List.mem_singleton.2 rfl) (not_err_mem e2)
  have hsame : ∀ u a, (u, a) ∈ i.versions → ∃ b, mget inv.versions u = some b ∧ equalState b a = true ∧
      equalMeta b a = true := by
    intro u a hua
    obtain ⟨s, hs, hsn⟩ := collect_noErrors hc' e4 hua
    unfold sameVersionFnd at hs
    simp only at hs
    cases hb : mget inv.versions u with
    | none => rw [hb] at hs; cases hs
    | some b =>
      rw [hb] at hs
      cases hs
      rw [noErrors_append] at hsn
      refine ⟨b, rfl, ?_, ?_⟩
      · by_contra hne
        have := hsn.1
        rw [if_neg hne] at this
        exact absurd (List.mem_singleton.2 rfl) (not_err_mem this)
      · by_contra hne
        have := hsn.2
        rw [if_neg hne] at this
        have := this _ (List.mem_singleton.2 rfl)
        simp at this
  have hkeys : ∀ u ∈ mkeys i.versions, u ∈ mkeys inv.versions := by
    intro u hu
    obtain ⟨⟨u', a⟩, he, rfl⟩ := List.mem_map.1 hu
    obtain ⟨b, hb, _⟩ := hsame u' a he
    exact mget_isSome_iff.1 (by rw [hb]; rfl)
  refine ⟨⟨hid.symm, hhead, by rw [hialg, halg], ?_, ?_, ?_⟩, hash, by rw [hialg, ← halg]; exact hhash, ?_⟩
  · intro u
    constructor
    · intro hu
      refine ⟨hkeys u hu, ?_⟩
      have hle := Gi.last u hu
      rw [hhead] at hle
      unfold versionLessOrEqual at hle
      have hval : ∀ x ∈ mkeys i.versions, versionValue i x = verNumber x := by
        intro x hx
        obtain ⟨y, hy⟩ := Option.isSome_iff_exists.1 (mget_isSome_iff.2 hx)
        unfold versionValue verNumber
        rw [hy]
      rw [hval u hu, hval v (hhead ▸ Gi.head)] at hle
      split at hle
      · rename_i a b ha hb
        exact ⟨a, b, ha, hb, by simpa using hle⟩
      · cases hle
    · rintro ⟨hu, k, n, hk, hn, hkn⟩
      -- the number occurs among those of `i`
      obtain ⟨N, hN⟩ := Gi.seq
      obtain ⟨M, hM⟩ := G.seq
      have hvn : n ∈ (mkeys i.versions).filterMap verNumber :=
        List.mem_filterMap.2 ⟨v, hhead ▸ Gi.head, hn⟩
      have hkM : k ∈ (mkeys inv.versions).filterMap verNumber := List.mem_filterMap.2 ⟨u, hu, hk⟩
      rw [hN.mem_iff] at hvn
      rw [hM.mem_iff] at hkM
      obtain ⟨a, ha, rfl⟩ := List.mem_map.1 hvn
      obtain ⟨b, hb, rfl⟩ := List.mem_map.1 hkM
      have hbN : ((b + 1 : Nat) : Int) ∈ (mkeys i.versions).filterMap verNumber := by
        rw [hN.mem_iff]
        refine List.mem_map.2 ⟨b, List.mem_range.2 ?_, rfl⟩
        have := List.mem_range.1 ha
        omega
      obtain ⟨u', hu', hk'⟩ := List.mem_filterMap.1 hbN
      have := filterMap_nodup_inj G.numNodup hu (hkeys u' hu') hk hk'
      rw [this]; exact hu'
  · intro u a b ha hb
    obtain ⟨b', hb', _, hme⟩ := hsame u a ha
    rw [mget_of_mem G.keysNodup hb] at hb'
    cases hb'
    simp only [equalMeta, Bool.and_eq_true, decide_eq_true_eq] at hme
    exact ⟨hme.1.1.1.symm, hme.1.1.2.symm, hme.1.2.symm, hme.2.symm⟩
  · intro u hu p
    obtain ⟨⟨u', a⟩, he, rfl⟩ := List.mem_map.1 hu
    obtain ⟨b, hb, hst, _⟩ := hsame u' a he
    have hp := ((C42_equal_iff b a).1 hst).2 p
    have k1 : (∃ d, FileAt i u' p d) ↔ ∃ d ps, (d, ps) ∈ a.state ∧ p ∈ ps := by
      constructor
      · rintro ⟨d, ver, ps, h1, h2, h3⟩
        have := mget_of_mem Gi.keysNodup h1
        rw [mget_of_mem Gi.keysNodup he] at this
        cases this
        exact ⟨d, ps, h2, h3⟩
      · rintro ⟨d, ps, h2, h3⟩; exact ⟨d, a, ps, he, h2, h3⟩
    have k2 : (∃ d, FileAt inv u' p d) ↔ ∃ d ps, (d, ps) ∈ b.state ∧ p ∈ ps := by
      constructor
      · rintro ⟨d, ver, ps, h1, h2, h3⟩
        have := mget_of_mem G.keysNodup h1
        rw [hb] at this
        cases this
        exact ⟨d, ps, h2, h3⟩
      · rintro ⟨d, ps, h2, h3⟩; exact ⟨d, b, ps, mem_of_mget hb, h2, h3⟩
    rw [k1, k2]; exact hp.symm
  · intro d m p hd hp
    obtain ⟨y, hy, hyn⟩ := collect_noErrors h3 n3 hin
    unfold versionDirFnd at hy
    obtain ⟨y', hy', hy⟩ := res_bind_eq_ok.1 hy
    cases hy
    simp only [noErrors_append] at hyn
    obtain ⟨z, hz, hzn⟩ := collect_noErrors h5 n5 hin
    exact present_of (mem_allDigests.2 (Or.inr ⟨v, i, hin, Or.inl rfl⟩)) (by rw [hialg, ← halg]; exact hhash) hm hy'
      hyn.1.1.2 hz hzn hd hp

theorem mapM_eq_map_getD {f : Str → Option Int} : ∀ {l : List Str}, (∀ k ∈ l, ∃ n, f k = some n) →
    l.mapM f = some (l.map (fun k => (f k).getD 0)) := by
  intro l
  induction l with
  | nil => intro _; rfl
  | cons x l ih =>
    intro h
    obtain ⟨n, hn⟩ := h x (by simp)
    rw [List.mapM_cons, hn, ih (fun k hk => h k (by simp [hk]))]
    simp [hn]

/-- The last version listed is the head. -/
theorem GoodVersions.getLast {inv : Inv} (G : GoodVersions inv) : (getVersionStrings inv).getLast? = some inv.head := by
  have hne : inv.versions ≠ [] := by
    intro h0
    have := G.head
    rw [h0] at this
    cases this
  have hval : ∀ x ∈ mkeys inv.versions, versionValue inv x = verNumber x := by
    intro x hx
    obtain ⟨y, hy⟩ := Option.isSome_iff_exists.1 (mget_isSome_iff.2 hx)
    unfold versionValue verNumber
    rw [hy]
  unfold getVersionStrings
  rw [if_neg hne, mapM_eq_map_getD (fun k hk => (G.num k hk).imp fun n hn => hn.2)]
  simp only
  obtain ⟨m, hm1, hm2⟩ := G.num _ G.head
  have hmem : ∀ x, x ∈ sortInt ((mkeys inv.versions).map (fun k => (vNumber k).getD 0)) ↔
      ∃ k ∈ mkeys inv.versions, vNumber k = some x := by
    intro x
    rw [(sortInt_perm _).mem_iff, List.mem_map]
    constructor
    · rintro ⟨k, hk, hx⟩
      obtain ⟨n, _, hn⟩ := G.num k hk
      rw [hn, Option.getD_some] at hx
      exact ⟨k, hk, by rw [hn, hx]⟩
    · rintro ⟨k, hk, hx⟩
      exact ⟨k, hk, by rw [hx]; rfl⟩
  have hsort := sortInt_sorted ((mkeys inv.versions).map (fun k => (vNumber k).getD 0))
  generalize sortInt ((mkeys inv.versions).map (fun k => (vNumber k).getD 0)) = l at *
  have hin : m ∈ l := (hmem m).2 ⟨_, G.head, hm2⟩
  obtain ⟨l', x, rfl⟩ : ∃ l' x, l = l' ++ [x] := ⟨_, _, (List.dropLast_append_getLast (List.ne_nil_of_mem hin)).symm⟩
  have hmx : m ≤ x := by
    rcases List.mem_append.1 hin with h | h
    · exact (List.pairwise_append.1 hsort).2.2 m h x (by simp)
    · rw [List.mem_singleton.1 h]
  obtain ⟨k, hk, hkx⟩ := (hmem x).1 (by simp)
  obtain ⟨x', hk1, hk2⟩ := G.num k hk
  rw [hkx] at hk2; cases hk2
  have hle := G.last k hk
  unfold versionLessOrEqual at hle
  rw [hval k hk, hval _ G.head, hk1, hm1] at hle
  have hxm : x ≤ m := by simpa using hle
  have hx : x = m := by omega
  subst hx
  rw [List.map_append, List.map_singleton, List.getLast?_append]
  simp only [List.getLast?_singleton, Option.some_or, Option.some.injEq]
  have hf : inv.head ∈ (mkeys inv.versions).filter (fun k => decide (vNumber k = some x)) := by
    rw [List.mem_filter, decide_eq_true_eq]; exact ⟨G.head, hm2⟩
  rw [List.getLast?_eq_getLast_of_ne_nil (List.ne_nil_of_mem hf), Option.getD_some]
  have hl := List.getLast_mem (List.ne_nil_of_mem hf)
  rw [List.mem_filter, decide_eq_true_eq] at hl
  obtain ⟨y, hy1, hy2⟩ := G.num _ hl.1
  rw [hl.2] at hy2; cases hy2
  exact filterMap_nodup_inj G.numNodup hl.1 G.head hy1 hm1

/-- **C77, for the head version**: in an object that validates, the inventory in the folder of the head version is one
of the same OCFL version with the same content directory, all its content is in the manifest of the root inventory at
the same content paths, and its versions have as many digests. -/
theorem C77_last_agrees_partial {w : World} {env : Env} {plain : Bool} {blank : Inv} {fs : FS} {folder : Str}
    {F : List Fnd} (h : checkFolder w env plain blank fs folder = .ok F) (hn : NoErrors F) {inv : Inv} {f : List Fnd}
    (hl : loadByFolder w env plain blank fs folder = .ok (inv, f)) {i : Inv} {g : List Fnd}
    (hi : loadVersion w env (subFS fs folder) inv.head = .ok (i, g)) (hw : WfInv inv) (hwi : WfInv i) :
    i.spec = inv.spec ∧ i.contentDirectory = inv.contentDirectory ∧ SubManifest i.manifest inv.manifest ∧
    ∀ v a b, (v, a) ∈ i.versions → (v, b) ∈ inv.versions → a.state.length = b.state.length := by
  obtain ⟨inv', f', g', hl', hr, hg, rfl⟩ := checkFolder_ok h hn
  rw [hl] at hl'; cases hl'
  simp only [noErrors_append] at hn
  obtain ⟨hnf, hnF, hng⟩ := hn
  obtain ⟨G, halg⟩ := loadRoot_good hr hnf
  obtain ⟨f1, vis, fm, f2, cd, f3, f4, f5, f6, f7, h1, hvv, hm, h2, hcd, h3, h4, h5, h6, h7, rfl⟩ :=
    checkFilesAndVersions_ok hg
  simp only [noErrors_append] at hng
  obtain ⟨⟨⟨⟨⟨⟨⟨⟨⟨n1, nv⟩, n2⟩, n3⟩, n3'⟩, n3''⟩, n4⟩, n5⟩, n6⟩, n7⟩ := hng
  have hin : (inv.head, i) ∈ vis.1 := (mem_versionInventories hvv _ i).2 ⟨(G.mem _).2 G.head, g, hi⟩
  have hget : mget vis.1 inv.head = some i := by
    obtain ⟨j, hj⟩ := Option.isSome_iff_exists.1 (mget_isSome_iff.2 (mem_mkeys_of_mem hin))
    obtain ⟨_, g2, hj2⟩ := (mem_versionInventories hvv _ j).1 (mem_of_mget hj)
    rw [hi] at hj2
    cases hj2
    exact hj
  unfold lastFnd at n3''
  rw [G.getLast] at n3''
  simp only [hget] at n3''
  have he : invEqual i inv = true := by
    by_contra hne
    rw [if_neg hne] at n3''
    exact absurd (List.mem_singleton.2 rfl) (not_err_mem n3'')
  obtain ⟨e1, _, e3, e4, _, e6⟩ := C43_equal_partial hwi hw he
  exact ⟨e1, e3, e4, fun v a b ha hb => (e6 v a b ha hb).2.2.2.2.1⟩

/-! ### A forged history is accepted -/

/-- two files exchanged in version 1; the root inventory says otherwise -/
def frgInv (s1 : DMap) (head : Str) (vs : AMap Str Version) : Inv :=
  { ockInv with
    head := head
    manifest := [("d1".toList, ["v1/content/a".toList]), ("d2".toList, ["v1/content/b".toList])] ++
      (if head = "v1".toList then [] else [("d3".toList, ["v2/content/c".toList])])
    versions := ("v1".toList, ⟨"t".toList, "m".toList, "u".toList, "mailto:u@x".toList, s1⟩) :: vs }

def frgState (a b : Str) : DMap := [("d1".toList, [a]), ("d2".toList, [b])]

def frgRoot : Inv := frgInv (frgState "a".toList "b".toList) "v2".toList
  [("v2".toList, ⟨"t".toList, "m".toList, "u".toList, "mailto:u@x".toList, [("d3".toList, ["a".toList]), ("d2".toList, ["b".toList])]⟩)]

/-- the inventory of version 1, as it should be or forged -/
def frgV1 (a b : Str) : Inv := frgInv (frgState a b) "v1".toList []

def frgHash (b : Bytes) : Str :=
  if b = [1] then "d1".toList else if b = [2] then "d2".toList else if b = [3] then "d3".toList
  else if b = [8] then "aa".toList else "bb".toList

def frgWorld (a b : Str) : World :=
  { exWorld with
    dec := fun x => if x = [8] then some { inv := frgRoot, vmeta := [] }
      else if x = [9] then some { inv := frgV1 a b, vmeta := [] } else none
    hash := fun x => if x = "sha512".toList then some frgHash else none }

def frgFS : FS :=
  [("o/0=ocfl_object_1.1".toList, asBytes "ocfl_object_1.1\n".toList),
   ("o/inventory.json".toList, [8]), ("o/inventory.json.sha512".toList, asBytes "aa inventory.json".toList),
   ("o/v2/inventory.json".toList, [8]), ("o/v2/inventory.json.sha512".toList, asBytes "aa inventory.json".toList),
   ("o/v2/content/c".toList, [3]),
   ("o/v1/inventory.json".toList, [9]), ("o/v1/inventory.json.sha512".toList, asBytes "bb inventory.json".toList),
   ("o/v1/content/a".toList, [1]), ("o/v1/content/b".toList, [2])]

theorem frg_accepted (x : Bool) : checkFolder (frgWorld (if x then "b".toList else "a".toList)
    (if x then "a".toList else "b".toList)) exEnv false ockInv frgFS "o".toList = .ok [] := by
  cases x <;> decide

/-- C77 is violated: the object with the exchanged files in the inventory of version 1 validates. -/
theorem C77_full_fails : ¬ C77_full := by
  intro h
  have h1 := (h (frgWorld "b".toList "a".toList) exEnv false ockInv frgFS "o".toList [] frgRoot [] "v1".toList
    (frgV1 "b".toList "a".toList) [] (frg_accepted true) (by intro x hx; cases hx) (by decide) (by decide)
    (by decide)).2 "v1".toList (by decide) "b".toList "d1".toList
  have h2 : FileAt (frgV1 "b".toList "a".toList) "v1".toList "b".toList "d1".toList :=
    ⟨⟨"t".toList, "m".toList, "u".toList, "mailto:u@x".toList, frgState "b".toList "a".toList⟩, ["b".toList],
      by decide, by decide, by decide⟩
  obtain ⟨ver, ps, hver, hps, hp⟩ := h1.1 h2
  have hver : (("v1".toList, ver) : Str × Version) ∈
      [("v1".toList, (⟨"t".toList, "m".toList, "u".toList, "mailto:u@x".toList, frgState "a".toList "b".toList⟩ : Version)),
       ("v2".toList, ⟨"t".toList, "m".toList, "u".toList, "mailto:u@x".toList, [("d3".toList, ["a".toList]), ("d2".toList, ["b".toList])]⟩)] := hver
  rcases List.mem_cons.1 hver with hver | hver
  · cases hver
    have hps : (("d1".toList, ps) : Str × List Str) ∈ [("d1".toList, ["a".toList]), ("d2".toList, ["b".toList])] := hps
    rcases List.mem_cons.1 hps with hps | hps
    · cases hps
      exact absurd hp (by decide)
    · have := (Prod.mk.inj (List.mem_singleton.1 hps)).1
      exact absurd this (by decide)
  · have := (Prod.mk.inj (List.mem_singleton.1 hver)).1
    exact absurd this (by decide)

/-- The honest object meets the hypotheses of the theorem. -/
example : AgreesUpTo frgRoot "v1".toList (frgV1 "a".toList "b".toList) :=
  (C77_inventories_agree_partial (frg_accepted false) (by intro x hx; cases hx) (inv := frgRoot) (f := []) (by decide)
    (by decide) (i := frgV1 "a".toList "b".toList) (g := []) (by decide)).1

theorem frgRoot_wf : WfInv frgRoot := by
  have h1 : ∀ e ∈ frgRoot.manifest, e.2.Nodup := by decide
  have h2 : ∀ e ∈ frgRoot.versions, (mkeys e.2.state).Nodup := by decide
  exact ⟨by decide, by decide, fun d ps h => h1 _ h, fun v ver h => h2 _ h⟩

/-- The head version of the honest object meets the hypotheses of the theorem. -/
example : SubManifest frgRoot.manifest frgRoot.manifest :=
  (C77_last_agrees_partial (frg_accepted false) (by intro x hx; cases hx) (inv := frgRoot) (f := []) (by decide)
    (i := frgRoot) (g := []) (by decide) frgRoot_wf frgRoot_wf).2.2.1

/-! ## C78 -/

/-- A path at which the object of this inventory keeps content: named in the manifest, or in the content directory of a
version. -/
def ContentPath (inv : Inv) (p : Str) : Prop :=
  (∃ d m, (d, m) ∈ inv.manifest ∧ p ∈ m) ∨ ∃ v ver q, (v, ver) ∈ inv.versions ∧ p = v ++ '/' :: inv.contentDir ++ '/' :: q

/-- The root inventory file determines the inventory. -/
theorem loadRoot_same {w : World} {env env' : Env} {fs fs' : FS} {i i' : Inv} {f f' : List Fnd}
    (hb : mget fs rootInvPath = mget fs' rootInvPath) (h : loadRoot w env fs = .ok (i, f))
    (h' : loadRoot w env' fs' = .ok (i', f')) : i = i' := by
  obtain ⟨b, r, ⟨x, a⟩, g, h1, h2, h3, _, h4, _⟩ := loadRoot_ok h
  obtain ⟨b', r', ⟨x', a'⟩, g', h1', h2', h3', _, h4', _⟩ := loadRoot_ok h'
  rw [h1, h1'] at hb; cases hb
  rw [h2] at h2'; cases h2'
  obtain ⟨_, _, _, _, _, hx⟩ := finalize_ok h3
  obtain ⟨_, _, _, _, _, hx'⟩ := finalize_ok h3'
  rw [h4, h4']
  simp only at hx hx' ⊢
  rw [hx, hx']

/-- **C78.** Two copies of an object with the same root inventory file, both of which validate, have content at the same
paths, with the same digests – so the same bytes, unless the digest algorithm collides on them.  It does not matter
where they are kept, nor what the rest of the folder looks like. -/
theorem C78_root_determines_content {w : World} {env env' : Env} {plain plain' : Bool} {blank blank' : Inv} {fs fs' : FS}
    {folder folder' : Str} {F F' : List Fnd} (h : checkFolder w env plain blank fs folder = .ok F) (hn : NoErrors F)
    (h' : checkFolder w env' plain' blank' fs' folder' = .ok F') (hn' : NoErrors F')
    (hsame : mget fs (folder ++ "/inventory.json".toList) = mget fs' (folder' ++ "/inventory.json".toList)) :
    ∃ inv f hash, loadByFolder w env plain blank fs folder = .ok (inv, f) ∧ w.hash inv.digestAlg = some hash ∧
      ∀ p, ContentPath inv p →
        (mget (subFS fs folder) p = none ↔ mget (subFS fs' folder') p = none) ∧
        (∀ b b', mget (subFS fs folder) p = some b → mget (subFS fs' folder') p = some b' → hash b = hash b') ∧
        ((∀ b b', mget (subFS fs folder) p = some b → mget (subFS fs' folder') p = some b' → hash b = hash b' → b = b') →
          mget (subFS fs folder) p = mget (subFS fs' folder') p) := by
  obtain ⟨inv, f, hash, hl, hh, hc⟩ := C75_accepted_content h hn
  obtain ⟨inv', f', hash', hl', hh', hc'⟩ := C75_accepted_content h' hn'
  obtain ⟨i1, f1, _, k1, r1, _, _⟩ := checkFolder_ok h hn
  obtain ⟨i2, f2, _, k2, r2, _, _⟩ := checkFolder_ok h' hn'
  rw [hl] at k1; cases k1
  rw [hl'] at k2; cases k2
  have : inv = inv' := by
    refine loadRoot_same ?_ r1 r2
    rw [mget_subFS, mget_subFS]
    exact hsame
  cases this
  rw [hh] at hh'; cases hh'
  refine ⟨inv, f, hash, hl, hh, ?_⟩
  have key : ∀ p, ContentPath inv p → (∃ d m, (d, m) ∈ inv.manifest ∧ p ∈ m) ∨
      (mget (subFS fs folder) p = none ∧ mget (subFS fs' folder') p = none) := by
    rintro p (hp | ⟨v, ver, q, hv, rfl⟩)
    · exact Or.inl hp
    · cases h1 : mget (subFS fs folder) (v ++ '/' :: inv.contentDir ++ '/' :: q) with
      | some b => exact Or.inl (hc.complete v ver q b hv h1)
      | none =>
        cases h2 : mget (subFS fs' folder') (v ++ '/' :: inv.contentDir ++ '/' :: q) with
        | some b => exact Or.inl (hc'.complete v ver q b hv h2)
        | none => exact Or.inr ⟨rfl, rfl⟩
  intro p hp
  rcases key p hp with ⟨d, m, hd, hm⟩ | ⟨h1, h2⟩
  · obtain ⟨b, hb, hbd⟩ := hc.present d m p hd hm
    obtain ⟨b', hb', hbd'⟩ := hc'.present d m p hd hm
    refine ⟨by rw [hb, hb']; simp, ?_, ?_⟩
    · intro x x' hx hx'
      rw [hb] at hx; rw [hb'] at hx'
      cases hx; cases hx'
      rw [hbd, hbd']
    · intro hinj
      rw [hb, hb', hinj b b' hb hb' (by rw [hbd, hbd'])]
  · refine ⟨by rw [h1, h2], ?_, ?_⟩
    · intro x x' hx _; rw [h1] at hx; cases hx
    · intro _; rw [h1, h2]

/-- Tampering with content does not go unnoticed: if an object validates, then after replacing, removing or adding
content (anything with another digest), validation of the same object fails or reports errors. -/
theorem C78_tampering_detected {w : World} {env : Env} {plain : Bool} {blank : Inv} {fs fs' : FS} {folder : Str}
    {F : List Fnd} (h : checkFolder w env plain blank fs folder = .ok F) (hn : NoErrors F)
    (hsame : mget fs' (folder ++ "/inventory.json".toList) = mget fs (folder ++ "/inventory.json".toList))
    {inv : Inv} {f : List Fnd} (hl : loadByFolder w env plain blank fs folder = .ok (inv, f)) {hash : Bytes → Str}
    (hh : w.hash inv.digestAlg = some hash) {p : Str} (hp : ContentPath inv p)
    (hne : (mget (subFS fs' folder) p).map hash ≠ (mget (subFS fs folder) p).map hash) {F' : List Fnd}
    (h' : checkFolder w env plain blank fs' folder = .ok F') : ¬ NoErrors F' := by
  intro hn'
  obtain ⟨inv1, f1, hash1, k1, k2, k3⟩ := C78_root_determines_content h hn h' hn' hsame.symm
  rw [hl] at k1; cases k1
  rw [hh] at k2; cases k2
  obtain ⟨a, b, _⟩ := k3 p hp
  apply hne
  cases h1 : mget (subFS fs folder) p with
  | none => rw [a.1 h1]
  | some x =>
    cases h2 : mget (subFS fs' folder) p with
    | none => rw [a.2 h2] at h1; cases h1
    | some y => simp [b x y h1 h2]

/-- the object with the content of its two files exchanged -/
def frgSwapped : FS := frgFS.map (fun e => if e.1 = "o/v1/content/a".toList then (e.1, [2]) else
  if e.1 = "o/v1/content/b".toList then (e.1, [1]) else e)

example : ∃ F, checkFolder (frgWorld "a".toList "b".toList) exEnv false ockInv frgSwapped "o".toList = .ok F ∧ ¬ NoErrors F := by
  have hx : ∃ F, checkFolder (frgWorld "a".toList "b".toList) exEnv false ockInv frgSwapped "o".toList = .ok F := by
    exact ⟨_, rfl⟩
  obtain ⟨F, hF⟩ := hx
  refine ⟨F, hF, C78_tampering_detected (frg_accepted false) (by intro x hx; cases hx) (inv := frgRoot) (f := [])
    (hash := frgHash) (p := "v1/content/a".toList) (by decide) (by decide) (by rfl) ?_ (by decide) hF⟩
  exact Or.inl ⟨"d1".toList, ["v1/content/a".toList], by decide, by decide⟩

end Gocfl
