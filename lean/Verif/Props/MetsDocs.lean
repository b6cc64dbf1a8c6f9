import Verif.Props.Mets

/-!
# C117, C119, C120: what the METS and PREMIS documents say

Beside the theorems of `Props/Mets`: the files listed, the PREMIS document, the types of the checksums, with examples.
-/

namespace Gocfl

/-! ## C117 -/

/-- The document lists the files of the version with their digests, and the paths where the contents are stored.  `own`: the
names of the documents. -/
structure ListsExactly (inv : Inv) (own : List Str) (md : MetsDoc) : Prop where
  true_ : ∀ q d, md.Lists false q d → HasFile inv inv.head q d
  all : ∀ q d, HasFile inv inv.head q d → q ∉ own → md.Lists false q d
  content : ∀ p d, md.Lists true p d ↔ (∃ ps, mget inv.manifest d = some ps ∧ p ∈ ps) ∧ ∃ q, HasFile inv inv.head q d

/-- **C117, in full.** -/
def C117_full : Prop :=
  ∀ (V : Type) (inv : Inv) (n : Nat) (x : MetsEnv V) (exts : List (Str × Res (AMap Str V))) (m : ObjMeta V) (md : MetsDoc)
    (pd : PremisDoc) (mn pn : DocNames), GoodInv inv n → objMetadata inv exts = .ok m → metsDocs x m = .ok (some (md, pd)) →
    docNamesOf x x.cfg.metsFile = .ok mn → docNamesOf x x.cfg.premisFile = .ok pn → ListsExactly inv [mn.ext, pn.ext] md

/-- **C117, nothing else is listed**: each external location is a file of the version with that digest, each internal one a
content path of that digest, for a content of the version. -/
theorem C117_listed_exists {V : Type} {inv : Inv} {n : Nat} (hg : GoodInv inv n) {x : MetsEnv V}
    {exts : List (Str × Res (AMap Str V))} {m : ObjMeta V} (h : objMetadata inv exts = .ok m) {md : MetsDoc} {pd : PremisDoc}
    (hd : metsDocs x m = .ok (some (md, pd))) :
    (∀ q d, md.Lists false q d → HasFile inv inv.head q d) ∧
    ∀ p d, md.Lists true p d → (∃ ps, mget inv.manifest d = some ps ∧ p ∈ ps) ∧ ∃ q, HasFile inv inv.head q d :=
  listed_exists hg h hd

/-- **C117.**  Where the primary metadata has a content of its own and contents are stored in the area of their files, the
document lists exactly the files of the version. -/
theorem C117_lists_partial {V : Type} {inv : Inv} {n : Nat} (hg : GoodInv inv n) {x : MetsEnv V}
    {exts : List (Str × Res (AMap Str V))} {m : ObjMeta V} (h : objMetadata inv exts = .ok m) {md : MetsDoc} {pd : PremisDoc}
    (hd : metsDocs x m = .ok (some (md, pd))) {mn pn : DocNames} (hmn : docNamesOf x x.cfg.metsFile = .ok mn)
    (hpn : docNamesOf x x.cfg.premisFile = .ok pn) (hp : PrimaryAlone x inv) (ha : AreasAgree x inv) :
    ListsExactly inv [mn.ext, pn.ext] md := by
  obtain ⟨h1, h2⟩ := listed_exists hg h hd
  refine ⟨h1, ?_, fun p d => ⟨h2 p d, ?_⟩⟩
  · intro q d hf hq
    simp only [List.mem_cons, List.not_mem_nil, or_false, not_or] at hq
    exact (exists_listed hg h hd hp hmn hpn hf).1 hq.1 hq.2
  · rintro ⟨⟨ps, hps, hpm⟩, q, hf⟩
    exact (exists_listed hg h hd hp hmn hpn hf).2 ha ps p hps hpm

/-- The file at `q` belongs to the area `A`: it lies in the area's folder; `schema`: there in the folder `schemas`, or is
itself called so. -/
def LiesIn (as : Areas) (q A : Str) (schema : Bool) : Prop :=
  ∃ (e : AreaEntry) (rest : Str), (A, e) ∈ as ∧ '/' ∉ e.path ∧ q = e.path ++ '/' :: rest ∧
    (schema = true ↔ rest = "schemas".toList ∨ "schemas/".toList <+: rest)

/-- no two areas have the same folder -/
def OwnFolder (as : Areas) : Prop := ∀ a ∈ as, ∀ b ∈ as, a.2.path = b.2.path → a = b

/-- the group lists the file at `q` -/
def MGroup.ListsFile (g : MGroup) (q : Str) : Prop := ∃ f ∈ g.files, (⟨false, q⟩ : Loc) ∈ f.locs

theorem splitOn_first (rest : Str) : ∃ n t, splitOn '/' rest = n :: t ∧
    (n = "schemas".toList ↔ rest = "schemas".toList ∨ "schemas/".toList <+: rest) := by
  by_cases h : '/' ∈ rest
  · obtain ⟨a, b, rfl, ha⟩ := List.eq_append_cons_of_mem h
    have hs : splitOn '/' (a ++ '/' :: b) = a :: splitOn '/' b := by rw [splitOn_append, splitOn_noSep ha]; rfl
    refine ⟨a, _, hs, ⟨?_, ?_⟩⟩
    · rintro rfl
      exact Or.inr ⟨b, by simp⟩
    · rintro (h' | ⟨c, h'⟩)
      · rw [h'] at h
        exact absurd h (by decide)
      · have h2 : splitOn '/' ("schemas/".toList ++ c) = "schemas".toList :: splitOn '/' c :=
          splitOn_append '/' "schemas".toList c
        rw [h', hs] at h2
        exact (List.cons.inj h2).1
  · refine ⟨rest, [], splitOn_noSep h, ⟨Or.inl, ?_⟩⟩
    rintro (h' | ⟨b, h'⟩)
    · exact h'
    · exact absurd (h' ▸ by simp) h

theorem extArea_liesIn {as : Areas} (ho : OwnFolder as) {q A : Str} {schema : Bool} (h : LiesIn as q A schema) :
    extArea (some as) q = (A, schema) := by
  obtain ⟨e, rest, hm, hp, rfl, hs⟩ := h
  obtain ⟨n, t, hn, hns⟩ := splitOn_first rest
  have hsp : splitOn '/' (e.path ++ '/' :: rest) = e.path :: n :: t := by
    rw [splitOn_append, splitOn_noSep hp, hn]; rfl
  unfold extArea
  rw [hsp]
  simp only [areaOf]
  cases hf : as.find? (fun a => decide (a.2.path = e.path)) with
  | none =>
    have := List.find?_eq_none.1 hf _ hm
    simp at this
  | some a =>
    have h1 := List.mem_of_find?_eq_some hf
    have h2 := List.find?_some hf
    have := ho a h1 _ hm (by simpa using h2)
    subst this
    simp only [Prod.mk.injEq, true_and]
    rw [← hns] at hs
    cases schema with
    | true => exact decide_eq_true (hs.1 rfl)
    | false => exact decide_eq_false (fun hh => by have := hs.2 hh; cases this)

theorem grouped_area {V : Type} {inv : Inv} {n : Nat} (hg : GoodInv inv n) {x : MetsEnv V}
    {exts : List (Str × Res (AMap Str V))} {m : ObjMeta V} (h : objMetadata inv exts = .ok m) {md : MetsDoc} {pd : PremisDoc}
    (hd : metsDocs x m = .ok (some (md, pd))) {q d A : Str} {schema : Bool} (hf : HasFile inv inv.head q d)
    (hA : extArea x.areas q = (A, schema)) :
    (schema = true → (∃ g ∈ md.groups, g.area = "schemas".toList ∧ g.ListsFile q) ∧
      ∀ g ∈ md.groups, g.ListsFile q → g.area = "schemas".toList) ∧
    (schema = false → A ≠ "metadata".toList → (∃ g ∈ md.groups, g.area = A ∧ g.ListsFile q) ∧
      ∀ g ∈ md.groups, g.ListsFile q → g.area = A) ∧
    (schema = false → A = "metadata".toList → ∀ g ∈ md.groups, ¬ g.ListsFile q) := by
  obtain ⟨mn, pn, st, _, _, _, hst, rfl, rfl⟩ := metsDocs_ok hd
  have hfiles := (metsPrimary_frame hst).1
  obtain ⟨e, he, rfl, rfl⟩ := hasFile_entry hg h hf
  have hx : extArea x.areas e.path = (A, schema) := hA
  have hin : ¬ isMeta (A, schema) → ∃ g ∈ (metsDoc x pn st (x.sha512 (x.premisXml ⟨st.objects, st.events⟩))).groups,
      g.area = areaKey (A, schema) ∧ g.ListsFile e.path := by
    intro hm
    obtain ⟨g, hgm, hk, hfg⟩ := (mem_groups (x := x) (pn := pn) (sum := x.sha512 (x.premisXml ⟨st.objects, st.events⟩))
      hfiles (k := areaKey (extArea x.areas e.path)) (f := _)).2 ⟨e, he, by rw [hx]; exact hm, rfl, rfl⟩
    exact ⟨g, hgm, by rw [hk, hx], _, hfg, by simp⟩
  have hout : ∀ g ∈ (metsDoc x pn st (x.sha512 (x.premisXml ⟨st.objects, st.events⟩))).groups, g.ListsFile e.path →
      ¬ isMeta (A, schema) ∧ g.area = areaKey (A, schema) := by
    rintro g hgm ⟨f, hfg, hl⟩
    obtain ⟨e', he', hm, hk, rfl⟩ := (mem_groups hfiles).1 ⟨g, hgm, rfl, hfg⟩
    have hpe : e'.path = e.path := by
      simp only [List.mem_append, List.mem_singleton, intLocs, List.mem_map, List.mem_filter] at hl
      rcases hl with ⟨p, _, hl⟩ | hl
      · cases hl
      · exact ((Loc.mk.injEq _ _ _ _).mp hl).2.symm
    rw [hpe, hx] at hm hk
    exact ⟨hm, hk⟩
  refine ⟨?_, ?_, ?_⟩
  · rintro rfl
    exact ⟨hin (by simp [isMeta]), fun g hgm hl => (hout g hgm hl).2⟩
  · rintro rfl hne
    exact ⟨hin (fun hm => hne hm.1), fun g hgm hl => (hout g hgm hl).2⟩
  · rintro rfl hA' g hgm hl
    exact (hout g hgm hl).1 ⟨hA', rfl⟩

/-- **C117, the groups**: a file is listed in the group of its area, schemas in the group of schemas, and in no other; files
of the metadata area, but for schemas, are in no group. -/
theorem C117_grouped {V : Type} {inv : Inv} {n : Nat} (hg : GoodInv inv n) {x : MetsEnv V}
    {exts : List (Str × Res (AMap Str V))} {m : ObjMeta V} (h : objMetadata inv exts = .ok m) {md : MetsDoc} {pd : PremisDoc}
    (hd : metsDocs x m = .ok (some (md, pd))) {as : Areas} (has : x.areas = some as) (ho : OwnFolder as) {q d A : Str}
    {schema : Bool} (hf : HasFile inv inv.head q d) (hA : LiesIn as q A schema) :
    (schema = true → (∃ g ∈ md.groups, g.area = "schemas".toList ∧ g.ListsFile q) ∧
      ∀ g ∈ md.groups, g.ListsFile q → g.area = "schemas".toList) ∧
    (schema = false → A ≠ "metadata".toList → (∃ g ∈ md.groups, g.area = A ∧ g.ListsFile q) ∧
      ∀ g ∈ md.groups, g.ListsFile q → g.area = A) ∧
    (schema = false → A = "metadata".toList → ∀ g ∈ md.groups, ¬ g.ListsFile q) :=
  grouped_area hg h hd hf (by rw [has]; exact extArea_liesIn ho hA)

/-- The file at `q` lies in no folder, or no areas are configured. -/
def NoArea (areas : Option Areas) (q : Str) : Prop := '/' ∉ q ∨ areas = none

/-- **C117, the other groups**: a file that lies in no folder is listed in the group of contents and in no other; so is every file
where no areas are configured. A file in a folder that is no area's is listed in the group of this name, unless that is `metadata`. -/
theorem C117_grouped_rest {V : Type} {inv : Inv} {n : Nat} (hg : GoodInv inv n) {x : MetsEnv V}
    {exts : List (Str × Res (AMap Str V))} {m : ObjMeta V} (h : objMetadata inv exts = .ok m) {md : MetsDoc} {pd : PremisDoc}
    (hd : metsDocs x m = .ok (some (md, pd))) {q d : Str} (hf : HasFile inv inv.head q d) :
    (NoArea x.areas q → (∃ g ∈ md.groups, g.area = "content".toList ∧ g.ListsFile q) ∧
      ∀ g ∈ md.groups, g.ListsFile q → g.area = "content".toList) ∧
    ∀ as a r, x.areas = some as → q = a ++ '/' :: r → '/' ∉ a → (∀ e ∈ as, e.2.path ≠ a) → a ≠ "metadata".toList →
      (∃ g ∈ md.groups, g.area = a ∧ g.ListsFile q) ∧ ∀ g ∈ md.groups, g.ListsFile q → g.area = a := by
  constructor
  · intro hn
    have hx : extArea x.areas q = ("content".toList, false) := by
      rcases hn with hn | hn
      · unfold extArea
        rw [splitOn_noSep hn]
      · unfold extArea areaOf
        rw [hn]
        split <;> rfl
    exact (grouped_area hg h hd hf hx).2.1 rfl (by decide)
  · rintro as a r has rfl ha hno hne
    have hx : extArea x.areas (a ++ '/' :: r) = (a, false) := by
      obtain ⟨n, t, hn, _⟩ := splitOn_first r
      have hsp : splitOn '/' (a ++ '/' :: r) = a :: n :: t := by
        rw [splitOn_append, splitOn_noSep ha, hn]; rfl
      unfold extArea areaOf
      rw [hsp, has]
      simp only
      rw [List.find?_eq_none.2 (fun e he => by simpa using hno e he)]
    exact (grouped_area hg h hd hf hx).2.1 rfl hne

/-! ## C119 -/

theorem collected_objects {V : Type} {x : MetsEnv V} {m : ObjMeta V} {own : List Str} {st : MetsSt}
    (hst : metsPrimary x m (metsCollected x m own) = .ok st) :
    st.objects = (metsEntries m).flatMap (entryObjects x m) ∧ st.events = (metsEntries m).flatMap (entryEvents x m) := by
  obtain ⟨_, h1, h2⟩ := metsPrimary_frame hst
  rw [h1, h2]
  unfold metsCollected addEntries
  simp

theorem mem_objects {V : Type} {x : MetsEnv V} {m : ObjMeta V} {own : List Str} {st : MetsSt}
    (hst : metsPrimary x m (metsCollected x m own) = .ok st) {o : PObject} :
    o ∈ st.objects ↔ ∃ e ∈ metsEntries m, ¬ isMeta (extArea x.areas e.path) ∧ o = ⟨fileId x e.path, premisFixity m e⟩ := by
  rw [(collected_objects hst).1, List.mem_flatMap]
  constructor
  · rintro ⟨e, he, ho⟩
    unfold entryObjects at ho
    split at ho
    · cases ho
    · rename_i hm
      exact ⟨e, he, hm, List.mem_singleton.1 ho⟩
  · rintro ⟨e, he, hm, rfl⟩
    refine ⟨e, he, ?_⟩
    unfold entryObjects
    rw [if_neg hm]
    exact List.mem_singleton.2 rfl

/-- The PREMIS document describes the files the METS document lists, under the same identifiers, each once. -/
theorem C119_objects {V : Type} {inv : Inv} {n : Nat} (hg : GoodInv inv n) {x : MetsEnv V} (hu : FreshIds x)
    {exts : List (Str × Res (AMap Str V))} {m : ObjMeta V} (h : objMetadata inv exts = .ok m) {md : MetsDoc} {pd : PremisDoc}
    (hd : metsDocs x m = .ok (some (md, pd))) : (pd.objects.map (·.id)).Nodup ∧
    ∀ u, (∃ o ∈ pd.objects, o.id = u) ↔ ∃ g ∈ md.groups, ∃ f ∈ g.files, f.id = u := by
  obtain ⟨mn, pn, st, _, _, _, hst, rfl, rfl⟩ := metsDocs_ok hd
  have hfiles := (metsPrimary_frame hst).1
  constructor
  · rw [(collected_objects hst).1, List.map_flatMap]
    refine nodup_flatMap_of (entries_nodup hg h) ?_ ?_
    · intro e _
      unfold entryObjects
      split <;> simp
    · intro a _ b _ y hya hyb
      unfold entryObjects at hya hyb
      split at hya
      · cases hya
      · split at hyb
        · cases hyb
        · simp only [List.map_cons, List.map_nil, List.mem_singleton] at hya hyb
          exact fileId_inj hu (hya.symm.trans hyb)
  · intro u
    constructor
    · rintro ⟨o, ho, rfl⟩
      obtain ⟨e, he, hm, rfl⟩ := (mem_objects hst).1 ho
      obtain ⟨g, hgm, _, hf⟩ := (mem_groups hfiles (pn := pn)
        (sum := x.sha512 (x.premisXml ⟨st.objects, st.events⟩)) (k := areaKey (extArea x.areas e.path))).2
        ⟨e, he, hm, rfl, rfl⟩
      exact ⟨g, hgm, _, hf, rfl⟩
    · rintro ⟨g, hgm, f, hf, rfl⟩
      obtain ⟨e, he, hm, _, rfl⟩ := (mem_groups hfiles).1 ⟨g, hgm, rfl, hf⟩
      exact ⟨_, (mem_objects hst).2 ⟨e, he, hm, rfl⟩, rfl⟩

theorem filedata_sound {V : Type} (es : List (MEntry V)) : ∀ (a : AMap Str Str) (p : Str × Str),
    p ∈ es.foldl (fun a e => mset a e.path e.cs) a → p ∈ a ∨ ∃ e ∈ es, e.path = p.1 ∧ e.cs = p.2 := by
  induction es with
  | nil => intro a p h; exact Or.inl h
  | cons e es ih =>
    intro a p h
    rcases ih _ p h with h | ⟨e', he', r⟩
    · rcases mem_mset_sub h with h | h
      · exact Or.inr ⟨e, by simp, by rw [h], by rw [h]⟩
      · exact Or.inl h
    · exact Or.inr ⟨e', by simp [he'], r⟩

/-- what events link to -/
theorem event_links {V : Type} {x : MetsEnv V} {m : ObjMeta V} {e : MEntry V} (he : e ∈ metsEntries m) {ev : PEvent}
    (hev : ev ∈ entryEvents x m e) {u : Str} (hu : u ∈ ev.links) : ∃ e' ∈ metsEntries m, u = fileId x e'.path := by
  unfold entryEvents at hev
  rcases List.mem_append.1 hev with hev | hev
  · rw [List.mem_map] at hev
    obtain ⟨v, _, rfl⟩ := hev
    refine ⟨e, he, ?_⟩
    unfold packingEvent at hu
    split at hu
    · exact List.mem_singleton.1 hu
    · exact List.mem_singleton.1 hu
  · split at hev
    · cases hev
    · unfold migrationEvent at hev
      split at hev
      · cases hev
      · rename_i source failed _
        simp only [List.mem_singleton] at hev
        subst hev
        rcases List.mem_append.1 hu with hu | hu
        · split at hu
          · rename_i y hy
            have hm := List.mem_of_find?_eq_some hy
            unfold metsFiledata at hm
            rcases filedata_sound _ _ _ hm with hm | ⟨e', he', h1, _⟩
            · cases hm
            · exact ⟨e', he', by rw [List.mem_singleton.1 hu, h1]⟩
          · cases hu
        · split at hu
          · cases hu
          · exact ⟨e, he, List.mem_singleton.1 hu⟩

/-- the digests of a file's fixity: the digest of the manifest and what the fixity block has for its first content path -/
structure PremisOk {V : Type} (x : MetsEnv V) (inv : Inv) (pd : PremisDoc) : Prop where
  /-- the objects of an event are described -/
  linked : ∀ ev ∈ pd.events, ∀ u ∈ ev.links, ∃ o ∈ pd.objects, o.id = u
  /-- a packing is recorded for each version that has the file -/
  packing : ∀ q d, HasFile inv inv.head q d → ∀ t a,
    ⟨false, t, a, [fileId x q]⟩ ∈ pd.events ↔
      ∃ v ver, mget inv.versions v = some ver ∧ ver.created = t ∧ ver.userAddress = a ∧ HasFile inv v q d
  /-- the digest of a file is given -/
  fixity : ∀ o ∈ pd.objects, ∃ q d, o.id = fileId x q ∧ HasFile inv inv.head q d ∧ (inv.digestAlg, d) ∈ o.fixity

/-- **C119, in full.** -/
def C119_full : Prop :=
  ∀ (V : Type) (inv : Inv) (n : Nat) (x : MetsEnv V) (exts : List (Str × Res (AMap Str V))) (m : ObjMeta V) (md : MetsDoc)
    (pd : PremisDoc), GoodInv inv n → FreshIds x → objMetadata inv exts = .ok m → metsDocs x m = .ok (some (md, pd)) →
    PremisOk x inv pd

/-- **C119, links**: an event links to files of the version; one that is not metadata is described. -/
theorem C119_links_partial {V : Type} {inv : Inv} {n : Nat} (hg : GoodInv inv n) {x : MetsEnv V} (hu : FreshIds x)
    {exts : List (Str × Res (AMap Str V))} {m : ObjMeta V} (h : objMetadata inv exts = .ok m) {md : MetsDoc} {pd : PremisDoc}
    (hd : metsDocs x m = .ok (some (md, pd))) {ev : PEvent} (hev : ev ∈ pd.events) {u : Str} (hl : u ∈ ev.links) :
    ∃ q d, u = fileId x q ∧ HasFile inv inv.head q d ∧
      ((∃ o ∈ pd.objects, o.id = u) ↔ ¬ isMeta (extArea x.areas q)) := by
  obtain ⟨mn, pn, st, _, _, _, hst, rfl, rfl⟩ := metsDocs_ok hd
  have hev : ev ∈ st.events := hev
  rw [(collected_objects hst).2, List.mem_flatMap] at hev
  obtain ⟨e, he, hev⟩ := hev
  obtain ⟨e', he', rfl⟩ := event_links he hev hl
  refine ⟨e'.path, e'.cs, rfl, (entry_hasFile hg h he').1, ?_⟩
  constructor
  · rintro ⟨o, ho, hid⟩
    obtain ⟨e2, _, hm, rfl⟩ := (mem_objects hst).1 ho
    rwa [fileId_inj hu hid] at hm
  · intro hm
    exact ⟨_, (mem_objects hst).2 ⟨e', he', hm, rfl⟩, rfl⟩

theorem mget_versionName {V : Type} {inv : Inv} {n : Nat} (hg : GoodInv inv n) {exts : List (Str × Res (AMap Str V))}
    {m : ObjMeta V} (h : objMetadata inv exts = .ok m) {d : Str} {f : FileMeta V} (hf : mget m.files d = some f) (v : Str) :
    mget f.versionName v = (mget inv.versions v).bind (fun ver => mget ver.state d) := by
  obtain ⟨em, _, rfl⟩ := objMetadata_ok h
  simp only at hf
  rw [mget_metaFiles hg.man] at hf
  cases hm : mget inv.manifest d with
  | none => rw [hm] at hf; cases hf
  | some fn =>
    rw [hm] at hf
    simp only [Option.bind_some] at hf
    split at hf
    · cases hf
    · cases hf
      exact mget_filterMapKV hg.wf.1.nodup (fun _ (v : Version) => mget v.state d) v

/-- **C119, packings**: those recorded for a file of the version are those of the versions that have its content, under any
name, each with the time and the user of the version. -/
theorem C119_packing_partial {V : Type} {inv : Inv} {n : Nat} (hg : GoodInv inv n) {x : MetsEnv V} (hu : FreshIds x)
    {exts : List (Str × Res (AMap Str V))} {m : ObjMeta V} (h : objMetadata inv exts = .ok m) {md : MetsDoc} {pd : PremisDoc}
    (hd : metsDocs x m = .ok (some (md, pd))) {q d : Str} (hf : HasFile inv inv.head q d) (t a : Str) :
    ⟨false, t, a, [fileId x q]⟩ ∈ pd.events ↔
      ∃ v ver, mget inv.versions v = some ver ∧ ver.created = t ∧ ver.userAddress = a ∧ d ∈ mkeys ver.state := by
  obtain ⟨mn, pn, st, _, _, _, hst, rfl, rfl⟩ := metsDocs_ok hd
  have hx := hg.exact h
  have hpack : ∀ v ver id, mget inv.versions v = some ver → packingEvent m id v = ⟨false, ver.created, ver.userAddress, [id]⟩ := by
    intro v ver id hv
    have := hx.versions v
    rw [hv] at this
    unfold packingEvent
    rw [this]
    rfl
  show _ ∈ st.events ↔ _
  rw [(collected_objects hst).2, List.mem_flatMap]
  constructor
  · rintro ⟨e, he, hev⟩
    obtain ⟨k1, _⟩ := (mem_metsEntries hg.man h e).1 he
    obtain ⟨hH, _⟩ := entry_hasFile hg h he
    unfold entryEvents at hev
    rcases List.mem_append.1 hev with hev | hev
    · rw [List.mem_map] at hev
      obtain ⟨⟨v, ns⟩, hv, hev⟩ := hev
      have hvn : ∃ ns, mget e.file.versionName v = some ns := by
        have := mget_isSome_iff (m := e.file.versionName) (k := v) |>.2 (mem_mkeys_of_mem hv)
        exact Option.isSome_iff_exists.1 this
      obtain ⟨ns', hvn⟩ := hvn
      rw [mget_versionName hg h k1] at hvn
      cases hvv : mget inv.versions v with
      | none => rw [hvv] at hvn; cases hvn
      | some ver =>
        rw [hvv] at hvn
        have hvn : mget ver.state e.cs = some ns' := hvn
        simp only at hev
        rw [hpack v ver _ hvv] at hev
        injection hev with _ h2 h3 h4
        have hp := fileId_inj hu (List.cons.inj h4).1
        subst hp
        have hcs := hasFile_unique hg hH hf
        subst hcs
        exact ⟨v, ver, hvv, h2, h3, mem_mkeys_of_mem (mem_of_mget hvn)⟩
    · exfalso
      split at hev
      · cases hev
      · unfold migrationEvent at hev
        split at hev
        · cases hev
        · rw [List.mem_singleton] at hev
          injection hev with h1
          cases h1
  · rintro ⟨v, ver, hv, rfl, rfl, hk⟩
    obtain ⟨e, he, rfl, rfl⟩ := hasFile_entry hg h hf
    obtain ⟨k1, _⟩ := (mem_metsEntries hg.man h e).1 he
    refine ⟨e, he, ?_⟩
    unfold entryEvents
    refine List.mem_append_left _ (List.mem_map.2 ?_)
    obtain ⟨ns, hns⟩ := Option.isSome_iff_exists.1 (mget_isSome_iff.2 hk)
    have hvn := mget_versionName hg h k1 v
    rw [hv] at hvn
    have hvn : mget e.file.versionName v = mget ver.state e.cs := hvn
    rw [hns] at hvn
    exact ⟨(v, ns), mem_of_mget hvn, hpack v ver _ hv⟩

/-- **C119, fixity**: an object that the indexer knows has the digest of its file; another one has no fixity. -/
theorem C119_fixity_partial {V : Type} {inv : Inv} {n : Nat} (hg : GoodInv inv n) {x : MetsEnv V}
    {exts : List (Str × Res (AMap Str V))} {m : ObjMeta V} (h : objMetadata inv exts = .ok m) {md : MetsDoc} {pd : PremisDoc}
    (hd : metsDocs x m = .ok (some (md, pd))) {o : PObject} (ho : o ∈ pd.objects) :
    ∃ q d f, o.id = fileId x q ∧ HasFile inv inv.head q d ∧ mget m.files d = some f ∧
      ((mget f.ext "NNNN-indexer".toList).isSome → o.fixity = (inv.digestAlg, d) :: f.checksums) ∧
      ((mget f.ext "NNNN-indexer".toList).isSome = false → o.fixity = []) := by
  obtain ⟨mn, pn, st, _, _, _, hst, rfl, rfl⟩ := metsDocs_ok hd
  obtain ⟨e, he, _, rfl⟩ := (mem_objects hst).1 ho
  obtain ⟨k1, _⟩ := (mem_metsEntries hg.man h e).1 he
  refine ⟨e.path, e.cs, e.file, rfl, (entry_hasFile hg h he).1, k1, ?_, ?_⟩
  · intro hi
    show premisFixity m e = _
    unfold premisFixity
    rw [if_pos hi, (hg.exact h).alg]
  · intro hi
    show premisFixity m e = _
    unfold premisFixity
    rw [hi]
    rfl

/-- **C119.**  Without metadata files, with all contents indexed and under the names they always had, the PREMIS document is
right. -/
theorem C119_premis_partial {V : Type} {inv : Inv} {n : Nat} (hg : GoodInv inv n) {x : MetsEnv V} (hu : FreshIds x)
    {exts : List (Str × Res (AMap Str V))} {m : ObjMeta V} (h : objMetadata inv exts = .ok m)
    (hm : ∀ q d, HasFile inv inv.head q d → ¬ isMeta (extArea x.areas q))
    (hi : ∀ d f, mget m.files d = some f → (mget f.ext "NNNN-indexer".toList).isSome)
    (hn : ∀ q d v ver, HasFile inv inv.head q d → mget inv.versions v = some ver → d ∈ mkeys ver.state → HasFile inv v q d)
    {md : MetsDoc} {pd : PremisDoc} (hd : metsDocs x m = .ok (some (md, pd))) : PremisOk x inv pd := by
  refine ⟨?_, ?_, ?_⟩
  · intro ev hev u hl
    obtain ⟨q, d, _, hf, hiff⟩ := C119_links_partial hg hu h hd hev hl
    exact hiff.2 (hm q d hf)
  · intro q d hf t a
    rw [C119_packing_partial hg hu h hd hf]
    constructor
    · rintro ⟨v, ver, hv, ht, ha, hk⟩
      exact ⟨v, ver, hv, ht, ha, hn q d v ver hf hv hk⟩
    · rintro ⟨v, ver, hv, ht, ha, hfv⟩
      refine ⟨v, ver, hv, ht, ha, ?_⟩
      obtain ⟨ver', ps, h1, h2, _⟩ := hfv
      have := mget_of_mem hg.wf.1.nodup h1
      rw [hv] at this
      cases this
      exact mem_mkeys_of_mem h2
  · intro o ho
    obtain ⟨q, d, f, h1, h2, h3, h4, _⟩ := C119_fixity_partial hg h hd ho
    refine ⟨q, d, h1, h2, ?_⟩
    rw [h4 (hi d f h3)]
    exact List.mem_cons_self

/-- **C119, migrations**: for a file of the version that is not metadata and was made by a migration there is an event that
links to the file, if the migration did not fail, and to a file with the digest of the source, if the version has one. -/
theorem C119_migration {V : Type} {inv : Inv} {n : Nat} (hg : GoodInv inv n) {x : MetsEnv V} (hu : FreshIds x)
    {exts : List (Str × Res (AMap Str V))} {m : ObjMeta V} (h : objMetadata inv exts = .ok m) {md : MetsDoc} {pd : PremisDoc}
    (hd : metsDocs x m = .ok (some (md, pd))) {q d : Str} (hf : HasFile inv inv.head q d)
    (hm : ¬ isMeta (extArea x.areas q)) {f : FileMeta V} (hmf : mget m.files d = some f) {src : Str} {failed : Bool}
    (hmig : (mget f.ext "NNNN-migration".toList).bind x.migration = some (src, failed)) :
    ∃ ev ∈ pd.events, ev.migration = true ∧
      (failed = false → fileId x q ∈ ev.links) ∧
      ((∃ s, HasFile inv inv.head s src) → ∃ s, HasFile inv inv.head s src ∧ fileId x s ∈ ev.links) ∧
      ∀ s, fileId x s ∈ ev.links → s = q ∨ HasFile inv inv.head s src := by
  obtain ⟨mn, pn, st, _, _, _, hst, rfl, rfl⟩ := metsDocs_ok hd
  obtain ⟨e, he, rfl, rfl⟩ := hasFile_entry hg h hf
  obtain ⟨k1, _⟩ := (mem_metsEntries hg.man h e).1 he
  rw [hmf] at k1; cases k1
  have hdata : ∀ y, y ∈ metsFiledata m → HasFile inv inv.head y.1 y.2 := by
    intro y hy
    unfold metsFiledata at hy
    rcases filedata_sound _ _ _ hy with hy | ⟨e', he', h1, h2⟩
    · cases hy
    · rw [← h1, ← h2]; exact (entry_hasFile hg h he').1
  have hback : ∀ s, HasFile inv inv.head s src → ∃ y ∈ metsFiledata m, y.2 = src := by
    intro s hs
    obtain ⟨e', he', h1, h2⟩ := hasFile_entry hg h hs
    -- paths are distinct, so the entry is not overwritten
    have : ∀ (es : List (MEntry V)) (a : AMap Str Str), e' ∈ es → (es.map (·.path)).Nodup →
        mget (es.foldl (fun a e => mset a e.path e.cs) a) e'.path = some e'.cs := by
      intro es
      induction es with
      | nil => intro a h; cases h
      | cons b es ih =>
        intro a hb hnd
        rw [List.map_cons, List.nodup_cons] at hnd
        rcases List.mem_cons.1 hb with rfl | hb
        · have hfr : ∀ (es : List (MEntry V)) (a : AMap Str Str) (k : Str), k ∉ es.map (·.path) →
              mget (es.foldl (fun a e => mset a e.path e.cs) a) k = mget a k := by
            intro es
            induction es with
            | nil => intro a k _; rfl
            | cons c es ih =>
              intro a k hk
              rw [List.map_cons, List.mem_cons, not_or] at hk
              rw [List.foldl_cons, ih _ _ hk.2, mget_mset_ne _ (fun h => hk.1 h.symm)]
          rw [List.foldl_cons, hfr _ _ _ hnd.1, mget_mset_self]
        · exact ih _ hb hnd.2
    have hg' := this (metsEntries m) [] he' (entries_nodup hg h)
    exact ⟨_, mem_of_mget hg', h2⟩
  refine ⟨⟨true, ((mget m.versions m.head).map VersionMeta.created).getD [], [],
      (match (metsFiledata m).find? (fun y => decide (y.2 = src)) with
        | some y => [fileId x y.1]
        | none => []) ++ if failed then [] else [fileId x e.path]⟩, ?_, ?_, ?_, ?_, ?_⟩
  · show _ ∈ st.events
    rw [(collected_objects hst).2, List.mem_flatMap]
    refine ⟨e, he, ?_⟩
    unfold entryEvents
    rw [if_neg hm]
    refine List.mem_append_right _ ?_
    unfold migrationEvent
    rw [hmig]
    exact List.mem_singleton.2 rfl
  · rfl
  · intro hfl
    simp [hfl]
  · rintro ⟨s, hs⟩
    obtain ⟨y, hy, hys⟩ := hback s hs
    cases hfd : (metsFiledata m).find? (fun y => decide (y.2 = src)) with
    | none =>
      have := List.find?_eq_none.1 hfd y hy
      simp [hys] at this
    | some z =>
      have h1 := hdata z (List.mem_of_find?_eq_some hfd)
      have h2 := List.find?_some hfd
      rw [decide_eq_true_eq] at h2
      rw [h2] at h1
      exact ⟨z.1, h1, by simp⟩
  · intro s hs
    rcases List.mem_append.1 hs with hs | hs
    · right
      cases hfd : (metsFiledata m).find? (fun y => decide (y.2 = src)) with
      | none => rw [hfd] at hs; cases hs
      | some z =>
        rw [hfd] at hs
        have hs := fileId_inj hu (List.mem_singleton.1 hs)
        subst hs
        have h1 := hdata z (List.mem_of_find?_eq_some hfd)
        have h2 := List.find?_some hfd
        rw [decide_eq_true_eq] at h2
        rwa [h2] at h1
    · left
      split at hs
      · cases hs
      · exact fileId_inj hu (List.mem_singleton.1 hs)

/-! ## C120 -/

/-- the names the METS schema has for digest algorithms -/
def metsAlgNames : List (Str × Str) :=
  [("sha512", "SHA-512"), ("sha384", "SHA-384"), ("sha256", "SHA-256"), ("sha1", "SHA-1"), ("md5", "MD5")].map
    (fun x => (x.1.toList, x.2.toList))

/-- Each checksum of the document is said to be of the algorithm it was made with. -/
structure TypesOk {V : Type} (x : MetsEnv V) (inv : Inv) (md : MetsDoc) (pd : PremisDoc) : Prop where
  sections : ∀ s ∈ md.dmd, (inv.digestAlg, s.checksumType) ∈ metsAlgNames
  files : ∀ g ∈ md.groups, ∀ f ∈ g.files, (inv.digestAlg, f.checksumType) ∈ metsAlgNames
  premis : ∀ s ∈ md.amd, s.checksum = x.sha512 (x.premisXml pd) ∧ s.checksumType = "SHA-512".toList

/-- **C120, in full**, for objects with a digest algorithm the schema has a name for. -/
def C120_full : Prop :=
  ∀ (V : Type) (inv : Inv) (n : Nat) (x : MetsEnv V) (exts : List (Str × Res (AMap Str V))) (m : ObjMeta V) (md : MetsDoc)
    (pd : PremisDoc), GoodInv inv n → inv.digestAlg ∈ metsAlgNames.map (·.1) → objMetadata inv exts = .ok m →
    metsDocs x m = .ok (some (md, pd)) → TypesOk x inv md pd

theorem checksumType_names {a : Str} (h : a ∈ metsAlgNames.map (·.1)) : (a, checksumTypeToMets a) ∈ metsAlgNames := by
  have : ∀ a ∈ metsAlgNames.map (·.1), (a, checksumTypeToMets a) ∈ metsAlgNames := by decide
  exact this a h

/-- **C120.**  The types of the descriptive sections are right, those of the files if the object has the digest algorithm
sha512, and the checksum of the PREMIS document is that of its content. -/
theorem C120_types_partial {V : Type} {inv : Inv} {n : Nat} (hg : GoodInv inv n) (ha : inv.digestAlg ∈ metsAlgNames.map (·.1))
    {x : MetsEnv V} {exts : List (Str × Res (AMap Str V))} {m : ObjMeta V} (h : objMetadata inv exts = .ok m) {md : MetsDoc}
    {pd : PremisDoc} (hd : metsDocs x m = .ok (some (md, pd))) :
    (∀ s ∈ md.dmd, (inv.digestAlg, s.checksumType) ∈ metsAlgNames) ∧
    (∀ g ∈ md.groups, ∀ f ∈ g.files, ((inv.digestAlg, f.checksumType) ∈ metsAlgNames ↔ inv.digestAlg = "sha512".toList)) ∧
    ∀ s ∈ md.amd, s.checksum = x.sha512 (x.premisXml pd) := by
  obtain ⟨mn, pn, st, _, _, _, hst, rfl, rfl⟩ := metsDocs_ok hd
  have hfiles := (metsPrimary_frame hst).1
  have halg := (hg.exact h).alg
  refine ⟨?_, ?_, ?_⟩
  · intro s hs
    have hs : s ∈ st.dmd := hs
    have hc : ∀ s ∈ (metsCollected x m [mn.ext, pn.ext]).dmd, s.checksumType = checksumTypeToMets m.alg := by
      intro s hs
      obtain ⟨e, _, hs⟩ := mem_collected_dmd.1 hs
      rcases hs with hs | hs
      · exact (intDmd_mem hs).2.2.1
      · exact (extDmd_mem hs).2.2.1
    have : s.checksumType = checksumTypeToMets inv.digestAlg := by
      rw [← halg]
      by_cases hp : x.cfg.primary = []
      · rw [metsPrimary_none hp hst] at hs; exact hc s hs
      · obtain ⟨cs, f, new, hP, hdmd, _⟩ := metsPrimary_ok hp hst
        rw [hdmd, List.mem_append] at hs
        rcases hs with hs | hs
        · exact hc s (List.mem_filter.1 hs).1
        · exact (hP.sec s hs).2.1
    rw [this]
    exact checksumType_names ha
  · intro g hgm f hf
    obtain ⟨e, _, _, _, rfl⟩ := (mem_groups hfiles).1 ⟨g, hgm, rfl, hf⟩
    have : ∀ a ∈ metsAlgNames.map (·.1), ((a, "SHA-512".toList) ∈ metsAlgNames ↔ a = "sha512".toList) := by decide
    exact this _ ha
  · intro s hs
    have : ∀ s ∈ (metsDoc x pn st (x.sha512 (x.premisXml ⟨st.objects, st.events⟩))).amd,
        s.checksum = x.sha512 (x.premisXml ⟨st.objects, st.events⟩) := by
      intro s hs
      unfold metsDoc at hs
      simp only [List.mem_cons, List.not_mem_nil, or_false] at hs
      rcases hs with rfl | rfl <;> rfl
    exact this s hs

/-- No METS document says of which algorithm the checksum of the PREMIS document is. -/
theorem C120_full_fails_always {V : Type} {inv : Inv} {x : MetsEnv V} {m : ObjMeta V} {md : MetsDoc} {pd : PremisDoc}
    (hd : metsDocs x m = .ok (some (md, pd))) : (∀ s ∈ md.amd, s.checksumType = []) ∧ ¬ TypesOk x inv md pd := by
  obtain ⟨mn, pn, st, _, _, _, hst, rfl, rfl⟩ := metsDocs_ok hd
  have h0 : checksumTypeToMets "SHA-512".toList = [] := by decide
  have key : ∀ s ∈ (metsDoc x pn st (x.sha512 (x.premisXml ⟨st.objects, st.events⟩))).amd, s.checksumType = [] := by
    intro s hs
    unfold metsDoc at hs
    simp only [List.mem_cons, List.not_mem_nil, or_false] at hs
    rcases hs with rfl | rfl <;> exact h0
  refine ⟨key, ?_⟩
  intro ht
  have hmem : ∃ s, s ∈ (metsDoc x pn st (x.sha512 (x.premisXml ⟨st.objects, st.events⟩))).amd :=
    ⟨_, List.mem_cons_self⟩
  obtain ⟨s, hs⟩ := hmem
  have h1 := (ht.premis s hs).2
  rw [key s hs] at h1
  cases h1

end Gocfl
