import Verif.Props.MetsDocs
import Verif.Props.Crash

/-!
# C117, C118, C119, C120: examples, and what is wrong

Small objects for which the documents are, and are not, as they should be.
-/

namespace Gocfl

theorem goodInv_of {inv : Inv} {n : Nat} (h0 : 0 < n)
    (h1 : mkeys inv.versions = (List.range n).map (fun k => verName inv.paddingLength ((k + 1 : Nat) : Int)))
    (h2 : inv.head = verName inv.paddingLength (n : Int))
    (h3 : ∀ e ∈ inv.versions, (mkeys e.2.state).Nodup ∧ (e.2.state.flatMap (·.2)).Nodup ∧
      ∀ d ∈ mkeys e.2.state, d ∈ mkeys inv.manifest)
    (h4 : (mkeys inv.manifest).Nodup ∧ ∀ e ∈ inv.manifest, e.2 ≠ []) : GoodInv inv n where
  wf := ⟨⟨by rw [h1], by
      rw [if_neg (by omega)]; exact h2⟩, fun v ver h => (h3 (v, ver) h).1⟩
  pos := h0
  man := h4.1
  refs := ⟨fun v ver d hv hd => mem_mkeys_iff.1 ((h3 (v, ver) hv).2.2 d hd), fun d m hm => h4.2 (d, m) hm⟩
  one := fun v ver h => (h3 (v, ver) h).2.1

/-- a path as an identifier without letters -/
def unary (p : Str) : Str := p.flatMap (fun c => List.replicate c.toNat '0' ++ ['1'])

theorem replicate_inj {a b : Nat} {r s : Str} (h : List.replicate a '0' ++ '1' :: r = List.replicate b '0' ++ '1' :: s) :
    a = b ∧ r = s := by
  induction a generalizing b with
  | zero =>
    cases b with
    | zero => simpa using h
    | succ b => simp [List.replicate_succ] at h
  | succ a ih =>
    cases b with
    | zero => simp [List.replicate_succ] at h
    | succ b =>
      simp only [List.replicate_succ, List.cons_append, List.cons.injEq, true_and] at h
      obtain ⟨h1, h2⟩ := ih h
      exact ⟨by rw [h1], h2⟩

theorem unary_inj {p q : Str} (h : unary p = unary q) : p = q := by
  induction p generalizing q with
  | nil =>
    cases q with
    | nil => rfl
    | cons c q => simp [unary] at h
  | cons c p ih =>
    cases q with
    | nil => simp [unary] at h
    | cons c' q =>
      have h : List.replicate c.toNat '0' ++ '1' :: unary p = List.replicate c'.toNat '0' ++ '1' :: unary q := by
        simpa [unary] using h
      obtain ⟨h1, h2⟩ := replicate_inj h
      rw [ih h2, Char.ext (UInt32.toNat.inj h1)]

theorem unary_digits (p : Str) : 'v' ∉ unary p := by
  unfold unary
  rw [List.mem_flatMap]
  rintro ⟨c, _, h⟩
  rw [List.mem_append, List.mem_replicate, List.mem_singleton] at h
  rcases h with ⟨_, h⟩ | h <;> cases h

def mxUuid : Fresh → Str
  | .file p => '2' :: unary p
  | .group a => '3' :: unary a
  | .premisInt => ['4']
  | .premisExt => ['5']

/-- an environment with the areas and the primary metadata given; extensions report names of sources of migrations -/
def mxEnv (areas : Areas) (primary : Str) : MetsEnv Str where
  w := exWorld
  cfg := ⟨"area".toList, "metadata".toList, primary, "mets.xml".toList, "premis.xml".toList⟩
  areas := some areas
  areaPath a := .ok a
  migration s := some (s, false)
  folder := "NNNN-mets".toList
  version := "1.1".toList
  uuid := mxUuid
  slug s := s
  format p _ := p
  sha512 b := 's' :: List.replicate b.length '0'
  metsXml _ := [1, 2]
  premisXml _ := [3, 4, 5]
  schemas := []

theorem mxEnv_fresh (areas : Areas) (primary : Str) : FreshIds (mxEnv areas primary) where
  inj a b h := by
    have h : mxUuid a = mxUuid b := h
    cases a <;> cases b <;> simp [mxUuid] at h <;> first | rfl | rw [unary_inj h]
  noV a := by
    show 'v' ∉ mxUuid a
    cases a <;> simp [mxUuid, unary_digits]

def mxAreas : Areas :=
  [("content".toList, ⟨"data".toList, []⟩), ("metadata".toList, ⟨"meta".toList, []⟩)]

/-- an object with the states given -/
def mxInv (man : DMap) (states : List DMap) : Inv where
  id := "id".toList
  spec := "https://ocfl.io/1.1/spec/#inventory".toList
  digestAlg := "sha512".toList
  head := verName 0 (states.length : Int)
  contentDirectory := []
  manifest := man
  versions := (List.range states.length).map (fun k => (verName 0 ((k + 1 : Nat) : Int),
    ⟨'t' :: fmtInt ((k + 1 : Nat) : Int), "m".toList, "u".toList, "x".toList, (states[k]?).getD []⟩))
  fixity := []
  fixityAlgs := []
  modified := false
  writeable := true
  paddingLength := 0

/-- the documents -/
def mxDocs (x : MetsEnv Str) (inv : Inv) (exts : List (Str × Res (AMap Str Str))) : Option (MetsDoc × PremisDoc) :=
  match objMetadata inv exts >>= fun m => metsDocs x m with
  | .ok r => r
  | .error _ => none

theorem mxDocs_some {x : MetsEnv Str} {inv : Inv} {exts : List (Str × Res (AMap Str Str))}
    (h : (mxDocs x inv exts).isSome = true) : ∃ m md pd, objMetadata inv exts = .ok m ∧
      metsDocs x m = .ok (some (md, pd)) ∧ mxDocs x inv exts = some (md, pd) := by
  have h0 := h
  unfold mxDocs at h
  split at h
  · rename_i r hr
    obtain ⟨m, hm, hd⟩ := res_bind_eq_ok.1 hr
    cases r with
    | none => cases h
    | some r =>
      refine ⟨m, r.1, r.2, hm, hd, ?_⟩
      unfold mxDocs
      rw [hr]
  · cases h

/-! ### A good object -/

def mxGood : Inv := mxInv [("d1".toList, ["v1/content/data/a".toList]), ("d2".toList, ["v2/content/meta/m".toList])]
  [[("d1".toList, ["data/a".toList])], [("d1".toList, ["data/a".toList, "data/b".toList]), ("d2".toList, ["meta/m".toList])]]

def mxPrimary : Str := "mods:metadata:m".toList

def mxX : MetsEnv Str := mxEnv mxAreas mxPrimary

theorem mxGood_good : GoodInv mxGood 2 := goodInv_of (by decide) (by decide) (by decide) (by decide) (by decide)

/-- the files of a version, for examples -/
def filesAt (inv : Inv) (v : Str) : List (Str × Str) :=
  ((mget inv.versions v).map (fun ver => ver.state.flatMap (fun e => e.2.map (fun q => (q, e.1))))).getD []

theorem mem_filesAt {inv : Inv} {n : Nat} (hg : GoodInv inv n) {v q d : Str} : HasFile inv v q d ↔ (q, d) ∈ filesAt inv v := by
  unfold filesAt
  constructor
  · rintro ⟨ver, ps, h1, h2, h3⟩
    rw [mget_of_mem hg.wf.1.nodup h1]
    exact List.mem_flatMap.2 ⟨(d, ps), h2, List.mem_map.2 ⟨q, h3, rfl⟩⟩
  · intro h
    cases hv : mget inv.versions v with
    | none => rw [hv] at h; cases h
    | some ver =>
      rw [hv] at h
      obtain ⟨⟨d', ps⟩, h2, h3⟩ := List.mem_flatMap.1 h
      obtain ⟨q', h4, h5⟩ := List.mem_map.1 h3
      cases h5
      exact ⟨ver, ps, mem_of_mget hv, h2, h4⟩

theorem areasAgree_of {x : MetsEnv Str} {inv : Inv} {n : Nat} (hg : GoodInv inv n)
    (h : ∀ e ∈ filesAt inv inv.head, ∀ p ∈ (mget inv.manifest e.2).getD [],
      (intMeta x.areas p ↔ isMeta (extArea x.areas e.1))) : AreasAgree x inv := by
  intro q d ps p hf hps hp
  refine h (q, d) ((mem_filesAt hg).1 hf) p ?_
  simp only [hps, Option.getD_some]
  exact hp

theorem mxGood_agree : AreasAgree mxX mxGood := areasAgree_of mxGood_good (by decide)

theorem mxGood_once : MetaOnce mxX mxGood := by
  intro q d ps _ hps
  have : ∀ e ∈ mxGood.manifest, (e.2.filter (fun p => decide (intMeta mxX.areas p))).length ≤ 1 := by decide
  exact this _ (mem_of_mget hps)

theorem mxGood_known : AreasKnown mxX mxGood := by
  intro q d hf
  have : ∀ e ∈ filesAt mxGood mxGood.head, areaKey (extArea mxX.areas e.1) ∈ knownAreas mxX.areas := by decide
  exact this _ ((mem_filesAt mxGood_good).1 hf)

theorem mxGood_alone : PrimaryAlone mxX mxGood := by
  right
  intro t name d hn hf
  have h1 : primaryName mxX.areas mxX.cfg.primary = .ok ("mods".toList, "meta/m".toList) := by rfl
  rw [h1] at hn
  cases hn
  have h2 := (mem_filesAt mxGood_good).1 hf
  have : ∀ e ∈ filesAt mxGood mxGood.head, e.1 = "meta/m".toList → e.2 = "d2".toList := by decide
  have hd := this _ h2 rfl
  simp only at hd
  subst hd
  refine ⟨⟨"v2/content/meta/m".toList, by decide⟩, ?_⟩
  intro q hq
  have : ∀ e ∈ filesAt mxGood mxGood.head, e.2 = "d2".toList → e.1 = "meta/m".toList := by decide
  exact this _ ((mem_filesAt mxGood_good).1 hq) rfl

/-- C117 and C118 hold of a document that is generated. -/
example : ∃ m md pd, objMetadata mxGood [] = .ok m ∧ metsDocs mxX m = .ok (some (md, pd)) ∧
    ListsExactly mxGood ["mets.xml".toList, "premis.xml".toList] md ∧ StructureOk md ∧
    md.groups.map (fun g => (g.area, g.files.map (fun f => (f.checksum, f.locs)))) =
      [("content".toList, [("d1".toList, [⟨true, "v1/content/data/a".toList⟩, ⟨false, "data/a".toList⟩]),
        ("d1".toList, [⟨true, "v1/content/data/a".toList⟩, ⟨false, "data/b".toList⟩])])] ∧
    md.dmd.map (fun s => (s.loc, s.mdType, s.checksum)) =
      [(⟨true, "v2/content/meta/m".toList⟩, "MODS".toList, "d2".toList),
       (⟨false, "meta/m".toList⟩, "MODS".toList, "d2".toList)] := by
  obtain ⟨m, md, pd, hm, hd, hx⟩ := mxDocs_some (x := mxX) (inv := mxGood) (exts := []) (by decide)
  have h1 : (mxDocs mxX mxGood []).map (fun r => r.1.groups.map (fun g => (g.area, g.files.map (fun f => (f.checksum, f.locs))))) =
      some [("content".toList, [("d1".toList, [⟨true, "v1/content/data/a".toList⟩, ⟨false, "data/a".toList⟩]),
        ("d1".toList, [⟨true, "v1/content/data/a".toList⟩, ⟨false, "data/b".toList⟩])])] := by decide
  have h2 : (mxDocs mxX mxGood []).map (fun r => r.1.dmd.map (fun s => (s.loc, s.mdType, s.checksum))) =
      some [(⟨true, "v2/content/meta/m".toList⟩, "MODS".toList, "d2".toList),
       (⟨false, "meta/m".toList⟩, "MODS".toList, "d2".toList)] := by decide
  rw [hx] at h1 h2
  exact ⟨m, md, pd, hm, hd,
    C117_lists_partial mxGood_good hm hd (mn := ⟨"mets.xml".toList, "mets.xml".toList⟩)
      (pn := ⟨"premis.xml".toList, "premis.xml".toList⟩) (by rfl) (by rfl) mxGood_alone mxGood_agree,
    C118_structure_partial mxGood_good (mxEnv_fresh _ _) hm mxGood_agree mxGood_once mxGood_known (by decide) hd,
    Option.some.inj h1, Option.some.inj h2⟩

/-- a file with its schema and a metadata file -/
def mxSchema : Inv := mxInv [("d1".toList, ["v1/content/data/a".toList]), ("d2".toList, ["v1/content/meta/schemas/x".toList]),
    ("d3".toList, ["v1/content/meta/m".toList])]
  [[("d1".toList, ["data/a".toList]), ("d2".toList, ["meta/schemas/x".toList]), ("d3".toList, ["meta/m".toList])]]

theorem mxSchema_good : GoodInv mxSchema 1 := goodInv_of (by decide) (by decide) (by decide) (by decide) (by decide)

/-- a schema is in the group of schemas, the file beside it in no group -/
example : ∃ m md pd, objMetadata mxSchema [] = .ok m ∧ metsDocs (mxEnv mxAreas []) m = .ok (some (md, pd)) ∧
    (∃ g ∈ md.groups, g.area = "schemas".toList ∧ g.ListsFile "meta/schemas/x".toList) ∧
    (∃ g ∈ md.groups, g.area = "content".toList ∧ g.ListsFile "data/a".toList) ∧
    ∀ g ∈ md.groups, ¬ g.ListsFile "meta/m".toList := by
  obtain ⟨m, md, pd, hm, hd, hx⟩ := mxDocs_some (x := mxEnv mxAreas []) (inv := mxSchema) (exts := []) (by decide)
  have ho : OwnFolder mxAreas := by unfold OwnFolder; decide
  have hp : ∀ r : Str, ¬ "schemas".toList.take 1 <+: r → ¬ (r = "schemas".toList ∨ "schemas/".toList <+: r) := by
    rintro r h (rfl | ⟨t, rfl⟩)
    · exact h (by decide)
    · exact h ⟨"chemas/".toList ++ t, rfl⟩
  refine ⟨m, md, pd, hm, hd, ?_, ?_, ?_⟩
  · exact ((C117_grouped mxSchema_good hm hd rfl ho (d := "d2".toList) (A := "metadata".toList) (schema := true)
      ((mem_filesAt mxSchema_good).2 (by decide))
      ⟨⟨"meta".toList, []⟩, "schemas/x".toList, by decide, by decide, by decide, by simp⟩).1 rfl).1
  · exact ((C117_grouped mxSchema_good hm hd rfl ho (d := "d1".toList) (A := "content".toList) (schema := false)
      ((mem_filesAt mxSchema_good).2 (by decide))
      ⟨⟨"data".toList, []⟩, "a".toList, by decide, by decide, by decide,
        ⟨fun h => (by cases h), fun h => absurd h (hp _ (by decide))⟩⟩).2.1 rfl (by decide)).1
  · exact (C117_grouped mxSchema_good hm hd rfl ho (d := "d3".toList) (A := "metadata".toList) (schema := false)
      ((mem_filesAt mxSchema_good).2 (by decide))
      ⟨⟨"meta".toList, []⟩, "m".toList, by decide, by decide, by decide,
        ⟨fun h => (by cases h), fun h => absurd h (hp _ (by decide))⟩⟩).2.2 rfl rfl

/-- a file in no folder and one in a folder that is no area's -/
def mxTop : Inv := mxInv [("d1".toList, ["v1/content/a".toList]), ("d2".toList, ["v1/content/x/b".toList])]
  [[("d1".toList, ["a".toList]), ("d2".toList, ["x/b".toList])]]

theorem mxTop_good : GoodInv mxTop 1 := goodInv_of (by decide) (by decide) (by decide) (by decide) (by decide)

/-- the first is in the group of contents, the other in the group of its folder -/
example : ∃ m md pd, objMetadata mxTop [] = .ok m ∧ metsDocs (mxEnv mxAreas []) m = .ok (some (md, pd)) ∧
    (∃ g ∈ md.groups, g.area = "content".toList ∧ g.ListsFile "a".toList) ∧ ∃ g ∈ md.groups, g.area = "x".toList ∧ g.ListsFile "x/b".toList := by
  obtain ⟨m, md, pd, hm, hd, hx⟩ := mxDocs_some (x := mxEnv mxAreas []) (inv := mxTop) (exts := []) (by decide)
  refine ⟨m, md, pd, hm, hd, ?_, ?_⟩
  · exact ((C117_grouped_rest mxTop_good hm hd (d := "d1".toList) ((mem_filesAt mxTop_good).2 (by decide))).1 (.inl (by decide))).1
  · exact ((C117_grouped_rest mxTop_good hm hd (d := "d2".toList) ((mem_filesAt mxTop_good).2 (by decide))).2 mxAreas "x".toList "b".toList rfl rfl (by decide)
      (by decide) (by decide)).1

/-! ### Wrong documents -/

set_option maxRecDepth 20000

/-- C118 fails: two folders that are no areas have groups with the same identifier. -/
def mxFolders : Inv := mxInv [("d1".toList, ["v1/content/x/a".toList]), ("d2".toList, ["v1/content/y/b".toList])]
  [[("d1".toList, ["x/a".toList]), ("d2".toList, ["y/b".toList])]]

theorem C118_full_fails_group_ids : ¬ C118_full := by
  intro hfull
  have hg : GoodInv mxFolders 1 := goodInv_of (by decide) (by decide) (by decide) (by decide) (by decide)
  obtain ⟨m, md, pd, hm, hd, hx⟩ := mxDocs_some (x := mxEnv [] []) (inv := mxFolders) (exts := []) (by decide)
  have h := (hfull _ _ _ _ _ _ _ _ hg (mxEnv_fresh _ _) hm hd).unique
  have h1 : (mxDocs (mxEnv [] []) mxFolders []).map (fun r => r.1.groups.map (·.id)) = some ["uuid-".toList, "uuid-".toList] := by
    decide
  rw [hx] at h1
  have h1 : md.groups.map (·.id) = ["uuid-".toList, "uuid-".toList] := Option.some.inj h1
  unfold metsIds at h
  have h2 := (List.nodup_append.1 (List.nodup_append.1 (List.nodup_append.1 h).2.1).2.1).1
  rw [h1] at h2
  exact absurd h2 (by decide)

/-- C118 fails: the metadata of a file outside the metadata area, with the same content, is pointed at as a file, which it is
not. -/
def mxShared : Inv := mxInv [("d1".toList, ["v1/content/data/a".toList])]
  [[("d1".toList, ["data/a".toList])], [("d1".toList, ["data/a".toList, "meta/m".toList])]]

theorem mxShared_good : GoodInv mxShared 2 := goodInv_of (by decide) (by decide) (by decide) (by decide) (by decide)

theorem C118_full_fails_dangling : ¬ C118_full := by
  intro hfull
  obtain ⟨m, md, pd, hm, hd, hx⟩ := mxDocs_some (x := mxEnv mxAreas []) (inv := mxShared) (exts := []) (by decide)
  have h := (hfull _ _ _ _ _ _ _ _ mxShared_good (mxEnv_fresh _ _) hm hd).resolve (fileId mxX "meta/m".toList)
  have h1 : (mxDocs (mxEnv mxAreas []) mxShared []).map (fun r => decide (fileId mxX "meta/m".toList ∈ metsIds r.1)) =
      some false := by decide
  have h2 : (mxDocs (mxEnv mxAreas []) mxShared []).map (fun r => r.1.struct.any (fun g => decide
      (fileId mxX "meta/m".toList ∈ g.2))) = some true := by decide
  rw [hx] at h1 h2
  have h1 : decide (fileId mxX "meta/m".toList ∈ metsIds md) = false := Option.some.inj h1
  have h2 := List.any_eq_true.1 (Option.some.inj h2)
  obtain ⟨⟨a, us⟩, hm', hu⟩ := h2
  exact of_decide_eq_false h1 (h ⟨a, us, hm', of_decide_eq_true hu⟩)

/-- C118 fails: a metadata content that is stored twice has two sections with the same identifier. -/
def mxTwice : Inv := mxInv [("d1".toList, ["v1/content/meta/m".toList, "v2/content/meta/m".toList])]
  [[("d1".toList, ["meta/m".toList])], [("d1".toList, ["meta/m".toList])]]

theorem C118_full_fails_section_ids : ¬ C118_full := by
  intro hfull
  have hg : GoodInv mxTwice 2 := goodInv_of (by decide) (by decide) (by decide) (by decide) (by decide)
  obtain ⟨m, md, pd, hm, hd, hx⟩ := mxDocs_some (x := mxEnv mxAreas []) (inv := mxTwice) (exts := []) (by decide)
  have h := (hfull _ _ _ _ _ _ _ _ hg (mxEnv_fresh _ _) hm hd).unique
  have h1 : (mxDocs (mxEnv mxAreas []) mxTwice []).map (fun r => decide ((r.1.dmd.map (·.id)).Nodup)) = some false := by
    decide
  rw [hx] at h1
  unfold metsIds at h
  exact of_decide_eq_false (Option.some.inj h1) (List.nodup_append.1 h).1

/-- C118 fails: without primary metadata the descriptive sections are in no structural map. -/
theorem C118_full_fails_unreached : ¬ C118_full := by
  intro hfull
  obtain ⟨m, md, pd, hm, hd, hx⟩ := mxDocs_some (x := mxEnv mxAreas []) (inv := mxGood) (exts := []) (by decide)
  have h := (hfull _ _ _ _ _ _ _ _ mxGood_good (mxEnv_fresh _ _) hm hd).sections
  have h1 : (mxDocs (mxEnv mxAreas []) mxGood []).map (fun r => r.1.dmd.any (fun s => decide
      (∀ g ∈ r.1.struct, s.id ∉ g.2))) = some true := by decide
  rw [hx] at h1
  obtain ⟨sec, hs, hn⟩ := List.any_eq_true.1 (Option.some.inj h1)
  obtain ⟨a, us, h2, h3⟩ := h sec (List.mem_append_left _ hs)
  exact of_decide_eq_true hn (a, us) h2 h3

/-- C117 fails: another metadata file with the content of the primary metadata is not listed. -/
def mxOther : Inv := mxInv [("d1".toList, ["v1/content/meta/m".toList])]
  [[("d1".toList, ["meta/m".toList, "meta/m2".toList])]]

theorem C117_full_fails_primary : ¬ C117_full := by
  intro hfull
  have hg : GoodInv mxOther 1 := goodInv_of (by decide) (by decide) (by decide) (by decide) (by decide)
  obtain ⟨m, md, pd, hm, hd, hx⟩ := mxDocs_some (x := mxX) (inv := mxOther) (exts := []) (by decide)
  have h := (hfull _ _ _ _ _ _ _ _ ⟨"mets.xml".toList, "mets.xml".toList⟩ ⟨"premis.xml".toList, "premis.xml".toList⟩ hg hm hd
    (by rfl) (by rfl)).all "meta/m2".toList "d1".toList ((mem_filesAt hg).2 (by decide)) (by decide)
  have h1 : (mxDocs mxX mxOther []).map (fun r => decide ((∀ g ∈ r.1.groups, g.files = []) ∧
      ∀ s ∈ r.1.dmd, s.loc ≠ ⟨false, "meta/m2".toList⟩)) = some true := by decide
  rw [hx] at h1
  obtain ⟨h1, h2⟩ := of_decide_eq_true (Option.some.inj h1)
  rcases h with ⟨g, hgm, f, hf, _⟩ | ⟨sec, hs, _, hl⟩
  · rw [h1 g hgm] at hf; cases hf
  · exact h2 sec hs hl

/-- C117 fails: where a metadata file has a content that was stored as another file, that place is not given. -/
def mxMoved : Inv := mxInv [("d1".toList, ["v1/content/data/a".toList])]
  [[("d1".toList, ["data/a".toList])], [("d1".toList, ["meta/m".toList])]]

theorem C117_full_fails_place : ¬ C117_full := by
  intro hfull
  have hg : GoodInv mxMoved 2 := goodInv_of (by decide) (by decide) (by decide) (by decide) (by decide)
  obtain ⟨m, md, pd, hm, hd, hx⟩ := mxDocs_some (x := mxEnv mxAreas []) (inv := mxMoved) (exts := []) (by decide)
  have h := ((hfull _ _ _ _ _ _ _ _ ⟨"mets.xml".toList, "mets.xml".toList⟩ ⟨"premis.xml".toList, "premis.xml".toList⟩ hg hm hd
    (by rfl) (by rfl)).content "v1/content/data/a".toList "d1".toList).2
      ⟨⟨_, (by rfl : mget mxMoved.manifest "d1".toList = some ["v1/content/data/a".toList]), by simp⟩,
        "meta/m".toList, (mem_filesAt hg).2 (by decide)⟩
  have h1 : (mxDocs (mxEnv mxAreas []) mxMoved []).map (fun r => decide ((∀ g ∈ r.1.groups, g.files = []) ∧
      ∀ s ∈ r.1.dmd, s.loc ≠ ⟨true, "v1/content/data/a".toList⟩)) = some true := by decide
  rw [hx] at h1
  obtain ⟨h1, h2⟩ := of_decide_eq_true (Option.some.inj h1)
  rcases h with ⟨g, hgm, f, hf, _⟩ | ⟨sec, hs, _, hl⟩
  · rw [h1 g hgm] at hf; cases hf
  · exact h2 sec hs hl

/-- C119 fails: a metadata file's packing links to an object that is not described. -/
theorem C119_full_fails_links : ¬ C119_full := by
  intro hfull
  obtain ⟨m, md, pd, hm, hd, hx⟩ := mxDocs_some (x := mxX) (inv := mxGood) (exts := []) (by decide)
  have h := (hfull _ _ _ _ _ _ _ _ mxGood_good (mxEnv_fresh _ _) hm hd).linked
  have h1 : (mxDocs mxX mxGood []).map (fun r => r.2.events.any (fun ev => ev.links.any (fun u => decide
      (∀ o ∈ r.2.objects, o.id ≠ u)))) = some true := by decide
  rw [hx] at h1
  obtain ⟨ev, hev, h2⟩ := List.any_eq_true.1 (Option.some.inj h1)
  obtain ⟨u, hu, h3⟩ := List.any_eq_true.1 h2
  obtain ⟨o, ho, hid⟩ := h ev hev u hu
  exact of_decide_eq_true h3 o ho hid

/-- C119 fails: a file is said to have been packed before it was there, as another one had its content. -/
theorem C119_full_fails_packing : ¬ C119_full := by
  intro hfull
  obtain ⟨m, md, pd, hm, hd, hx⟩ := mxDocs_some (x := mxX) (inv := mxGood) (exts := []) (by decide)
  have h := ((hfull _ _ _ _ _ _ _ _ mxGood_good (mxEnv_fresh _ _) hm hd).packing "data/b".toList "d1".toList
    ((mem_filesAt mxGood_good).2 (by decide)) "t1".toList "x".toList).1
      ((C119_packing_partial mxGood_good (mxEnv_fresh _ _) hm hd (d := "d1".toList) ((mem_filesAt mxGood_good).2 (by decide)) _ _).2
        ⟨"v1".toList, _, (by rfl : mget mxGood.versions "v1".toList =
          some ⟨"t1".toList, "m".toList, "u".toList, "x".toList, [("d1".toList, ["data/a".toList])]⟩), rfl, rfl, by decide⟩)
  obtain ⟨v, ver, hv, ht, _, hf⟩ := h
  have h1 : ∀ e ∈ mxGood.versions, e.2.created = "t1".toList → e.1 = "v1".toList := by decide
  have hv1 : v = "v1".toList := h1 (v, ver) (mem_of_mget hv) ht
  subst hv1
  exact absurd ((mem_filesAt mxGood_good).1 hf) (by decide)

/-- C119 fails: without an indexer no file has a fixity. -/
theorem C119_full_fails_fixity : ¬ C119_full := by
  intro hfull
  obtain ⟨m, md, pd, hm, hd, hx⟩ := mxDocs_some (x := mxX) (inv := mxGood) (exts := []) (by decide)
  have h := (hfull _ _ _ _ _ _ _ _ mxGood_good (mxEnv_fresh _ _) hm hd).fixity
  have h1 : (mxDocs mxX mxGood []).map (fun r => r.2.objects.any (fun o => decide (o.fixity = []))) = some true := by decide
  rw [hx] at h1
  obtain ⟨o, ho, he⟩ := List.any_eq_true.1 (Option.some.inj h1)
  obtain ⟨_, _, _, _, hf⟩ := h o ho
  rw [of_decide_eq_true he] at hf
  cases hf

/-- C120 fails. -/
theorem C120_full_fails_premis : ¬ C120_full := by
  intro hfull
  obtain ⟨m, md, pd, hm, hd, hx⟩ := mxDocs_some (x := mxX) (inv := mxGood) (exts := []) (by decide)
  exact (C120_full_fails_always hd).2 (hfull _ _ _ _ _ _ _ _ mxGood_good (by decide) hm hd)

/-- C119 and C120 of an object whose files are indexed; one is the outcome of a migration of the other -/
def mxMigrated : Inv := mxInv [("d1".toList, ["v1/content/data/a".toList]), ("d2".toList, ["v2/content/data/b".toList])]
  [[("d1".toList, ["data/a".toList])], [("d1".toList, ["data/a".toList]), ("d2".toList, ["data/b".toList])]]

def mxExts : List (Str × Res (AMap Str Str)) :=
  [("NNNN-indexer".toList, .ok [("d1".toList, []), ("d2".toList, [])]),
   ("NNNN-migration".toList, .ok [("d2".toList, "d1".toList)])]

example : ∃ m md pd, objMetadata mxMigrated mxExts = .ok m ∧ metsDocs (mxEnv mxAreas []) m = .ok (some (md, pd)) ∧
    PremisOk (mxEnv mxAreas []) mxMigrated pd ∧
    (∃ ev ∈ pd.events, ev.migration = true ∧ ev.links = [fileId mxX "data/a".toList, fileId mxX "data/b".toList]) ∧
    (∀ g ∈ md.groups, ∀ f ∈ g.files, ("sha512".toList, f.checksumType) ∈ metsAlgNames) := by
  have hg : GoodInv mxMigrated 2 := goodInv_of (by decide) (by decide) (by decide) (by decide) (by decide)
  obtain ⟨m, md, pd, hm, hd, hx⟩ := mxDocs_some (x := mxEnv mxAreas []) (inv := mxMigrated) (exts := mxExts) (by decide)
  have hall : (match objMetadata mxMigrated mxExts with
      | .ok m => decide (∀ e ∈ m.files, (mget e.2.ext "NNNN-indexer".toList).isSome)
      | .error _ => false) = true := by decide
  rw [hm] at hall
  have hall := of_decide_eq_true hall
  refine ⟨m, md, pd, hm, hd, C119_premis_partial hg (mxEnv_fresh _ _) hm ?_ ?_ ?_ hd, ?_, ?_⟩
  · intro q d hf
    have : ∀ e ∈ filesAt mxMigrated mxMigrated.head, ¬ isMeta (extArea (mxEnv mxAreas []).areas e.1) := by decide
    exact this _ ((mem_filesAt hg).1 hf)
  · intro d f hf
    exact hall (d, f) (mem_of_mget hf)
  · intro q d v ver hf hv hk
    rw [mem_filesAt hg] at hf ⊢
    have : ∀ e ∈ filesAt mxMigrated mxMigrated.head, ∀ w ∈ mxMigrated.versions, e.2 ∈ mkeys w.2.state →
        e ∈ filesAt mxMigrated w.1 := by decide
    exact this _ hf (v, ver) (mem_of_mget hv) hk
  · have h1 : (mxDocs (mxEnv mxAreas []) mxMigrated mxExts).map (fun r => r.2.events.any (fun ev => decide
        (ev.migration = true ∧ ev.links = [fileId mxX "data/a".toList, fileId mxX "data/b".toList]))) = some true := by decide
    rw [hx] at h1
    obtain ⟨ev, hev, he⟩ := List.any_eq_true.1 (Option.some.inj h1)
    exact ⟨ev, hev, of_decide_eq_true he⟩
  · intro g hgm f hf
    exact ((C120_types_partial hg (by decide) hm hd).2.1 g hgm f hf).2 rfl

end Gocfl
