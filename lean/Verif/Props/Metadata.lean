import Verif.Model.Metadata
import Verif.Props.Life
import Verif.Props.RootCheck
import Verif.Props.Extract
import Verif.Props.JsonL

/-!
# C83, C84, C85, C86: metadata of objects and storage roots, extraction of whole storage roots
-/

namespace Gocfl

/-! ## Maps -/

theorem mget_filterMapKV {K V W : Type} [DecidableEq K] {l : AMap K V} (hn : (mkeys l).Nodup) (f : K → V → Option W) (k : K) :
    mget (l.filterMap (fun e => (f e.1 e.2).map (fun x => (e.1, x)))) k = (mget l k).bind (f k) := by
  induction l with
  | nil => rfl
  | cons e l ih =>
    obtain ⟨k', v⟩ := e
    simp only [mkeys, List.map_cons, List.nodup_cons] at hn
    have ih := ih hn.2
    have hnone : k' = k → mget (l.filterMap (fun e => (f e.1 e.2).map (fun x => (e.1, x)))) k = none := by
      rintro rfl
      rw [ih]
      have : mget l k' = none := by
        cases h : mget l k' with
        | none => rfl
        | some x => exact absurd (mem_mkeys_of_mem (mem_of_mget h)) hn.1
      rw [this]; rfl
    rw [List.filterMap_cons]
    cases hf : f k' v with
    | none =>
      simp only [Option.map_none, mget]
      split
      · rename_i hk
        rw [hnone hk, ← hk]; simp [hf]
      · exact ih
    | some x =>
      simp only [Option.map_some, mget]
      split
      · rename_i hk
        rw [← hk]; simp [hf]
      · exact ih

theorem mget_mapKV {K V W : Type} [DecidableEq K] (l : AMap K V) (f : V → W) (k : K) :
    mget (l.map (fun e => (e.1, f e.2))) k = (mget l k).map f := by
  induction l with
  | nil => rfl
  | cons e l ih =>
    simp only [List.map_cons, mget]
    split
    · rfl
    · exact ih

/-! ## C83 -/

/-- The fixity block gives each path at most one digest per algorithm. -/
def FixityFunctional (inv : Inv) : Prop :=
  ∀ a mm, (a, mm) ∈ inv.fixity → ∀ d d' m m' p, (d, m) ∈ mm → (d', m') ∈ mm → p ∈ m → p ∈ m' → d = d'

/-- What the metadata of an object should say. -/
structure MetaExact {V : Type} (inv : Inv) (m : ObjMeta V) : Prop where
  id : m.id = inv.id
  alg : m.alg = inv.digestAlg
  head : m.head = inv.head
  /-- the versions, with their data -/
  versions : ∀ v, mget m.versions v = (mget inv.versions v).map (fun x => ⟨x.created, x.message, x.userName, x.userAddress⟩)
  /-- the files are those of the manifest, with all their content paths -/
  files : ∀ d, (mget m.files d).map FileMeta.internal = mget inv.manifest d
  /-- a version has a logical path with a digest exactly if the file says so -/
  names : ∀ v p d, HasFile inv v p d ↔ ∃ f ps, mget m.files d = some f ∧ mget f.versionName v = some ps ∧ p ∈ ps

/-- Each checksum recorded for any of the paths of a file is reported. -/
def ChecksumsExact {V : Type} (inv : Inv) (m : ObjMeta V) : Prop :=
  ∀ d f, mget m.files d = some f → ∀ a c, mget f.checksums a = some c ↔
    ∃ mm ps p, mget inv.fixity a = some mm ∧ mget mm c = some ps ∧ p ∈ ps ∧ p ∈ f.internal

/-- **C83, in full.** -/
def C83_full : Prop :=
  ∀ (V : Type) (inv : Inv) (exts : List (Str × Res (AMap Str V))) (m : ObjMeta V), (mkeys inv.versions).Nodup →
    MapKeysOk inv → FixKeys inv → RefsResolve inv → FixityFunctional inv → objMetadata inv exts = .ok m →
    MetaExact inv m ∧ ChecksumsExact inv m

theorem objMetadata_ok {V : Type} {inv : Inv} {exts : List (Str × Res (AMap Str V))} {m : ObjMeta V}
    (h : objMetadata inv exts = .ok m) : ∃ em, mergeMeta exts [] = .ok em ∧
      m = { id := inv.id, alg := inv.digestAlg, head := inv.head,
            versions := inv.versions.map (fun e => (e.1, versionMeta e.2)),
            files := inv.manifest.filterMap (fun e => if e.2 = [] then none else some (e.1, fileMeta inv em e.1 e.2)),
            ext := mget em [] } := by
  unfold objMetadata at h
  obtain ⟨em, he, h⟩ := res_bind_eq_ok.1 h
  cases h
  exact ⟨em, he, rfl⟩

theorem mget_metaFiles {V : Type} {inv : Inv} {em : AMap Str (AMap Str V)} (hn : (mkeys inv.manifest).Nodup) (d : Str) :
    mget (inv.manifest.filterMap (fun e => if e.2 = [] then none else some (e.1, fileMeta inv em e.1 e.2))) d =
      (mget inv.manifest d).bind (fun ps => if ps = [] then none else some (fileMeta inv em d ps)) := by
  rw [← mget_filterMapKV hn (fun k ps => if ps = [] then none else some (fileMeta inv em k ps))]
  congr 1
  apply List.filterMap_congr
  intro e _
  split <;> rfl

/-- C83, but for the checksums: the metadata of an object whose digests resolve is exact. -/
theorem C83_metadata_exact_partial {V : Type} {inv : Inv} {exts : List (Str × Res (AMap Str V))} {m : ObjMeta V}
    (hv : (mkeys inv.versions).Nodup) (hk : MapKeysOk inv) (hf : (mkeys inv.manifest).Nodup) (hr : RefsResolve inv)
    (h : objMetadata inv exts = .ok m) : MetaExact inv m := by
  obtain ⟨em, _, rfl⟩ := objMetadata_ok h
  refine ⟨rfl, rfl, rfl, ?_, ?_, ?_⟩
  · intro v
    exact mget_mapKV _ _ _
  · intro d
    simp only [mget_metaFiles hf]
    cases hd : mget inv.manifest d with
    | none => rfl
    | some ps =>
      have := hr.2 d ps (mem_of_mget hd)
      simp [this, fileMeta]
  · intro v p d
    simp only [mget_metaFiles hf]
    have hvn : ∀ (ps : List Str), mget (fileMeta inv em d ps).versionName v = (mget inv.versions v).bind (fun ver => mget ver.state d) :=
      fun ps => mget_filterMapKV hv (fun _ ver => mget ver.state d) v
    constructor
    · rintro ⟨ver, ps, h1, h2, h3⟩
      obtain ⟨ms, hms⟩ := hr.1 v ver d h1 (mem_mkeys_of_mem h2)
      refine ⟨fileMeta inv em d ms, ps, ?_, ?_, h3⟩
      · rw [mget_of_mem hf hms]
        simp [hr.2 d ms hms]
      · rw [hvn, mget_of_mem hv h1]
        exact mget_of_mem (hk v ver h1) h2
    · rintro ⟨f, ps, h1, h2, h3⟩
      obtain ⟨ms, _, hms⟩ := Option.bind_eq_some_iff.1 h1
      split at hms
      · cases hms
      · cases hms
        rw [hvn] at h2
        obtain ⟨ver, h4, h5⟩ := Option.bind_eq_some_iff.1 h2
        exact ⟨ver, ps, mem_of_mget h4, mem_of_mget h5, h3⟩

/-- C83, the checksums: those recorded for the first content path of a file are reported, no others. -/
theorem C83_checksums_partial {V : Type} {inv : Inv} {exts : List (Str × Res (AMap Str V))} {m : ObjMeta V}
    (hk : FixKeys inv) (hfun : FixityFunctional inv) (h : objMetadata inv exts = .ok m) {d : Str} {f : FileMeta V}
    (hf : mget m.files d = some f) (a c : Str) :
    mget f.checksums a = some c ↔
      ∃ mm ps p rest, mget inv.fixity a = some mm ∧ mget mm c = some ps ∧ p ∈ ps ∧ f.internal = p :: rest := by
  obtain ⟨em, _, rfl⟩ := objMetadata_ok h
  simp only [mget_metaFiles hk.manifest] at hf
  obtain ⟨fnames, _, hf⟩ := Option.bind_eq_some_iff.1 hf
  split at hf
  · cases hf
  · rename_i hne
    cases hf
    cases fnames with
    | nil => exact absurd rfl hne
    | cons p rest =>
      have hcs : mget (fileMeta inv em d (p :: rest)).checksums a =
          (mget inv.fixity a).bind (fun mm => (mm.find? (fun x => decide (p ∈ x.2))).map (·.1)) := by
        rw [← mget_filterMapKV hk.fixity (fun _ mm => (mm.find? (fun x => decide (p ∈ x.2))).map (·.1))]
        show mget (fixityChecksums inv.fixity p) a = _
        unfold fixityChecksums
        congr 1
        apply List.filterMap_congr
        intro e _
        rw [Option.map_map]
        rfl
      rw [hcs]
      constructor
      · intro hx
        obtain ⟨mm, h1, h2⟩ := Option.bind_eq_some_iff.1 hx
        obtain ⟨⟨c', ps⟩, h3, rfl⟩ := Option.map_eq_some_iff.1 h2
        refine ⟨mm, ps, p, rest, h1, mget_of_mem (hk.blocks a mm (mem_of_mget h1)) (List.mem_of_find?_eq_some h3), ?_, rfl⟩
        simpa using List.find?_some h3
      · rintro ⟨mm, ps, p', rest', h1, h2, h3, h4⟩
        have h4 : p :: rest = p' :: rest' := h4
        cases h4
        rw [h1]
        show (mm.find? (fun x => decide (p ∈ x.2))).map (·.1) = some c
        cases hfi : mm.find? (fun x => decide (p ∈ x.2)) with
        | none =>
          have := List.find?_eq_none.1 hfi _ (mem_of_mget h2)
          simp [h3] at this
        | some e =>
          have h5 := List.mem_of_find?_eq_some hfi
          have h6 : p ∈ e.2 := by simpa using List.find?_some hfi
          rw [Option.map_some]
          exact congrArg some (hfun a mm (mem_of_mget h1) e.1 c e.2 ps p h5 (mem_of_mget h2) h6 h3)

/-- C83 for objects the tool wrote: whatever sessions an object went through, its metadata is exact. -/
theorem C83_life_exact {V : Type} {w : World} {env : Env} {a : CreateArgs} {id : Str} {fs : FS} {N : Nat} {inv : Inv}
    (hc : Codec w) (hx : HexHash w) (hl : LowerHash w) (ht : ∀ t, w.time (w.time t) = w.time t) (ga : GoodArgs a id)
    (L : Life w env a id fs N inv) {exts : List (Str × Res (AMap Str V))} {m : ObjMeta V}
    (h : objMetadata inv exts = .ok m) : MetaExact inv m := by
  have I := (life_alive hc hx hl ht ga L).intact.ok
  exact C83_metadata_exact_partial I.wf.1.nodup I.wf.2 I.keys.manifest I.covered h

/-- an inventory with two paths for one content, of which only the second one has a checksum -/
def csInv : Inv :=
  { exInv with
    manifest := [("d".toList, ["v1/content/a".toList, "v1/content/b".toList])]
    fixity := [("md5".toList, [("c".toList, ["v1/content/b".toList])])]
    versions := [("v1".toList, ⟨[], [], [], [], [("d".toList, ["a".toList, "b".toList])]⟩)]
    head := "v1".toList }

/-- **C83 is violated**: the checksum of the second content path is not reported. -/
theorem C83_full_fails : ¬ C83_full := by
  intro h
  have h1 : ∃ m, objMetadata csInv ([] : List (Str × Res (AMap Str Unit))) = .ok m := ⟨_, rfl⟩
  obtain ⟨m, hm⟩ := h1
  obtain ⟨_, hc⟩ := h Unit csInv [] m (by decide) (by
      intro v ver hv
      simp only [csInv, List.mem_singleton, Prod.mk.injEq] at hv
      obtain ⟨_, rfl⟩ := hv
      decide) ⟨by decide, by decide, by
        intro a mm hm
        simp only [csInv, List.mem_singleton, Prod.mk.injEq] at hm
        obtain ⟨_, rfl⟩ := hm
        decide⟩ ⟨by
        intro v ver d hv hd
        simp only [csInv, List.mem_singleton, Prod.mk.injEq] at hv
        obtain ⟨_, rfl⟩ := hv
        simp only [mkeys, List.map_cons, List.map_nil, List.mem_singleton] at hd
        subst hd
        exact ⟨_, List.mem_singleton.2 rfl⟩, by
        intro d m hm
        simp only [csInv, List.mem_singleton, Prod.mk.injEq] at hm
        obtain ⟨_, rfl⟩ := hm
        simp⟩ (by
        intro a mm hm d d' m m' p h1 h2 _ _
        simp only [csInv, List.mem_singleton, Prod.mk.injEq] at hm
        obtain ⟨_, rfl⟩ := hm
        simp only [List.mem_singleton, Prod.mk.injEq] at h1 h2
        rw [h1.1, h2.1]) hm
  have hd : ∃ f, mget m.files "d".toList = some f ∧ f.checksums = [] ∧ "v1/content/b".toList ∈ f.internal := by
    cases hm
    exact ⟨_, rfl, by decide, by decide⟩
  obtain ⟨f, hf, hcs, hb⟩ := hd
  have := (hc "d".toList f hf "md5".toList "c".toList).2 ⟨_, _, _, rfl, rfl, List.mem_singleton.2 rfl, hb⟩
  rw [hcs] at this
  cases this

/-! ## C84 -/

theorem rootMetadata_cons {V : Type} {load : Str → Res (Inv × List Fnd)} {exts : Str → Inv → List (Str × Res (AMap Str V))}
    {p : List Str} {ps : List (List Str)} {acc M : AMap Str (ObjMeta V)} :
    rootMetadata load exts (p :: ps) acc = .ok M ↔ ∃ r m, load (folderPath p) = .ok r ∧
      objMetadata r.1 (exts (folderPath p) r.1) = .ok m ∧ rootMetadata load exts ps (mset acc r.1.id m) = .ok M := by
  rw [rootMetadata]
  simp only [res_bind_eq_ok]
  constructor
  · rintro ⟨r, h1, m, h2, h3⟩; exact ⟨r, m, h1, h2, h3⟩
  · rintro ⟨r, m, h1, h2, h3⟩; exact ⟨r, h1, m, h2, h3⟩

theorem rootMetadata_other {V : Type} {load : Str → Res (Inv × List Fnd)} {exts : Str → Inv → List (Str × Res (AMap Str V))}
    {ps : List (List Str)} {acc M : AMap Str (ObjMeta V)} (h : rootMetadata load exts ps acc = .ok M) {k : Str}
    (hk : ∀ p ∈ ps, ∀ r, load (folderPath p) = .ok r → r.1.id ≠ k) : mget M k = mget acc k := by
  induction ps generalizing acc with
  | nil => cases h; rfl
  | cons p ps ih =>
    obtain ⟨r, m, h1, _, h3⟩ := rootMetadata_cons.1 h
    rw [ih h3 (fun q hq => hk q (List.mem_cons_of_mem _ hq)), mget_mset_ne _ (hk p (by simp) r h1)]

theorem rootMetadata_sound {V : Type} {load : Str → Res (Inv × List Fnd)} {exts : Str → Inv → List (Str × Res (AMap Str V))}
    {ps : List (List Str)} {acc M : AMap Str (ObjMeta V)} (h : rootMetadata load exts ps acc = .ok M) {k : Str}
    {m : ObjMeta V} (hm : mget M k = some m) : mget acc k = some m ∨ ∃ p ∈ ps, ∃ r, load (folderPath p) = .ok r ∧
      r.1.id = k ∧ objMetadata r.1 (exts (folderPath p) r.1) = .ok m := by
  induction ps generalizing acc with
  | nil => cases h; exact .inl hm
  | cons p ps ih =>
    obtain ⟨r, m', h1, h2, h3⟩ := rootMetadata_cons.1 h
    rcases ih h3 with h4 | ⟨q, hq, h4⟩
    · rw [mget_mset] at h4
      split at h4
      · rename_i hid
        cases h4
        exact .inr ⟨p, by simp, r, h1, hid, h2⟩
      · exact .inl h4
    · exact .inr ⟨q, List.mem_cons_of_mem _ hq, h4⟩

theorem rootMetadata_complete {V : Type} {load : Str → Res (Inv × List Fnd)}
    {exts : Str → Inv → List (Str × Res (AMap Str V))} {ps : List (List Str)} {acc M : AMap Str (ObjMeta V)}
    (h : rootMetadata load exts ps acc = .ok M)
    (hd : ∀ p ∈ ps, ∀ q ∈ ps, ∀ r r', load (folderPath p) = .ok r → load (folderPath q) = .ok r' → r.1.id = r'.1.id → p = q)
    {p : List Str} (hp : p ∈ ps) : ∃ r m, load (folderPath p) = .ok r ∧
      objMetadata r.1 (exts (folderPath p) r.1) = .ok m ∧ mget M r.1.id = some m := by
  induction ps generalizing acc with
  | nil => cases hp
  | cons q ps ih =>
    obtain ⟨r, m, h1, h2, h3⟩ := rootMetadata_cons.1 h
    by_cases hin : p ∈ ps
    · exact ih h3 (fun a ha b hb => hd a (List.mem_cons_of_mem _ ha) b (List.mem_cons_of_mem _ hb)) hin
    · have hpq : p = q := (List.mem_cons.1 hp).resolve_right hin
      subst hpq
      refine ⟨r, m, h1, h2, ?_⟩
      rw [rootMetadata_other h3, mget_mset_self]
      intro q hq r' hr' hid
      have := hd p (by simp) q (List.mem_cons_of_mem _ hq) r r' h1 hr' hid.symm
      subst this
      exact hin hq

/-- **C84, in full**: the metadata of a storage root contains that of each object, under its identifier. -/
def C84_full : Prop :=
  ∀ (V : Type) (w : World) (env : Env) (plain : Bool) (blank : Inv) (fs : FS) (t : FDir)
    (exts : Str → Inv → List (Str × Res (AMap Str V))) (M : AMap Str (ObjMeta V)), TreeOf t fs → GoodNames t → NoNesting t →
    RootHierarchy t → extractMeta w env plain blank fs t exts = .ok M →
    ∀ p, IsObjectFolder t p → ∃ r m, loadByFolder w env plain blank fs (folderPath p) = .ok r ∧
      objMetadata r.1 (exts (folderPath p) r.1) = .ok m ∧ mget M r.1.id = some m

/-- C84, if no two objects have the same identifier; and nothing else is reported. -/
theorem C84_root_metadata_partial {V : Type} {w : World} {env : Env} {plain : Bool} {blank : Inv} {fs : FS} {t : FDir}
    {exts : Str → Inv → List (Str × Res (AMap Str V))} {M : AMap Str (ObjMeta V)} (G : GoodNames t) (hnest : NoNesting t)
    (hh : RootHierarchy t) (h : extractMeta w env plain blank fs t exts = .ok M)
    (hd : ∀ p q r r', IsObjectFolder t p → IsObjectFolder t q → loadByFolder w env plain blank fs (folderPath p) = .ok r →
      loadByFolder w env plain blank fs (folderPath q) = .ok r' → r.1.id = r'.1.id → p = q) :
    (∀ p, IsObjectFolder t p → ∃ r m, loadByFolder w env plain blank fs (folderPath p) = .ok r ∧
      objMetadata r.1 (exts (folderPath p) r.1) = .ok m ∧ mget M r.1.id = some m) ∧
    ∀ k m, mget M k = some m → ∃ p, IsObjectFolder t p ∧ ∃ r, loadByFolder w env plain blank fs (folderPath p) = .ok r ∧
      r.1.id = k ∧ objMetadata r.1 (exts (folderPath p) r.1) = .ok m := by
  have hlist := (C58_exact_partial G hnest hh).2
  refine ⟨fun p hp => rootMetadata_complete h (fun p hp q hq r r' => hd p q r r' ((hlist p).1 hp) ((hlist q).1 hq))
    ((hlist p).2 hp), ?_⟩
  intro k m hm
  rcases rootMetadata_sound h hm with h1 | ⟨p, hp, h1⟩
  · cases h1
  · exact ⟨p, (hlist p).1 hp, h1⟩

/-- When it comes to a result: every object can be opened and its extensions report. -/
theorem C84_completes_iff {V : Type} {w : World} {env : Env} {plain : Bool} {blank : Inv} {fs : FS} {t : FDir}
    {exts : Str → Inv → List (Str × Res (AMap Str V))} (G : GoodNames t) (hnest : NoNesting t) (hh : RootHierarchy t) :
    (∃ M, extractMeta w env plain blank fs t exts = .ok M) ↔
      ∀ p, IsObjectFolder t p → ∃ r, loadByFolder w env plain blank fs (folderPath p) = .ok r ∧
        ∃ m, objMetadata r.1 (exts (folderPath p) r.1) = .ok m := by
  have hlist := (C58_exact_partial G hnest hh).2
  have key : ∀ (ps : List (List Str)) (acc : AMap Str (ObjMeta V)),
      (∃ M, rootMetadata (loadByFolder w env plain blank fs) exts ps acc = .ok M) ↔
        ∀ p ∈ ps, ∃ r, loadByFolder w env plain blank fs (folderPath p) = .ok r ∧
          ∃ m, objMetadata r.1 (exts (folderPath p) r.1) = .ok m := by
    intro ps
    induction ps with
    | nil => intro acc; simp [rootMetadata]
    | cons p ps ih =>
      intro acc
      simp only [rootMetadata_cons, List.mem_cons, forall_eq_or_imp]
      constructor
      · rintro ⟨M, r, m, h1, h2, h3⟩
        exact ⟨⟨r, h1, m, h2⟩, (ih _).1 ⟨M, h3⟩⟩
      · rintro ⟨⟨r, h1, m, h2⟩, h3⟩
        obtain ⟨M, hM⟩ := (ih (mset acc r.1.id m)).2 h3
        exact ⟨M, r, m, h1, h2, hM⟩
  unfold extractMeta
  rw [key]
  exact forall_congr' (fun p => by rw [hlist p])

/-- a storage root with two objects, in the folders `o` and `p`, with the same identifier -/
def twinRootFS : FS :=
  ("0=ocfl_1.1".toList, asBytes "ocfl_1.1\n".toList) :: (ockFS ++ ockFS.map (fun e => ('p' :: e.1.drop 1, e.2)))

def twinRootTree : FDir := .file "0=ocfl_1.1".toList (ockTree true (ockTree true .nil "p".toList) "o".toList)

theorem twin_tree : TreeOf twinRootTree twinRootFS := treeOf_of_check (by decide) (by decide) (by decide) (by decide)

theorem twin_good : GoodNames twinRootTree := goodNames_of_check (by decide) (by decide)

theorem twin_noNesting : NoNesting twinRootTree := noNesting_of_check (by decide) (by decide)

theorem twin_hierarchy : RootHierarchy twinRootTree :=
  ⟨.inr (.inl ⟨objHere_iff.1 (by decide), _, _, rfl⟩), .inr (.inl ⟨objHere_iff.1 (by decide), _, _, rfl⟩), trivial⟩

theorem twin_object : IsObjectFolder twinRootTree ["o".toList] :=
  ⟨_, .step (List.Mem.head _) (.here _), objHere_iff.1 (by decide), by simp, by decide⟩

/-- an extension that reports something different for each object -/
def twinExts (folder : Str) (_ : Inv) : List (Str × Res (AMap Str Str)) := [("x".toList, .ok [([], folder)])]

/-- **C84 is violated**: of two objects with the same identifier only the second one is reported. -/
theorem C84_full_fails : ¬ C84_full := by
  intro h
  have hok : ∃ M, extractMeta ockWorld exEnv false ockInv twinRootFS twinRootTree twinExts = .ok M := by
    rw [C84_completes_iff twin_good twin_noNesting twin_hierarchy]
    intro p hp
    have hp := ((C58_exact_partial twin_good twin_noNesting twin_hierarchy).2 p).2 hp
    have : getObjectFolders twinRootTree = [["o".toList], ["p".toList]] := by decide
    rw [this] at hp
    simp only [List.mem_cons, List.not_mem_nil, or_false] at hp
    rcases hp with rfl | rfl
    · exact ⟨(ockInv, []), by decide, _, rfl⟩
    · exact ⟨(ockInv, []), by decide, _, rfl⟩
  obtain ⟨M, hM⟩ := hok
  obtain ⟨r, m, h1, h2, h3⟩ := h Str ockWorld exEnv false ockInv twinRootFS twinRootTree twinExts M twin_tree twin_good
    twin_noNesting twin_hierarchy hM _ twin_object
  have e1 : loadByFolder ockWorld exEnv false ockInv twinRootFS (folderPath ["o".toList]) = .ok (ockInv, []) := by decide
  have e2 : loadByFolder ockWorld exEnv false ockInv twinRootFS (folderPath ["p".toList]) = .ok (ockInv, []) := by decide
  rw [e1] at h1
  cases h1
  have hl : getObjectFolders twinRootTree = [["o".toList], ["p".toList]] := by decide
  unfold extractMeta at hM
  rw [hl] at hM
  obtain ⟨r1, m1, h4, _, hM⟩ := rootMetadata_cons.1 hM
  obtain ⟨r2, m2, h5, h6, hM⟩ := rootMetadata_cons.1 hM
  rw [e2] at h5
  cases h5
  cases hM
  rw [mget_mset_self] at h3
  have hext : m2.ext = m.ext := by cases h3; rfl
  have hm : m.ext = some [("x".toList, "o".toList)] := by cases h2; rfl
  have hm2 : m2.ext = some [("x".toList, "p".toList)] := by cases h6; rfl
  rw [hm, hm2] at hext
  exact absurd hext (by decide)

/-- the metadata of a root with one object -/
example : ∃ M, extractMeta ockWorld exEnv false ockInv okRootFS okRootTree twinExts = .ok M ∧
    ∃ r m, loadByFolder ockWorld exEnv false ockInv okRootFS (folderPath ["o".toList]) = .ok r ∧
      objMetadata r.1 (twinExts (folderPath ["o".toList]) r.1) = .ok m ∧ mget M r.1.id = some m := by
  have hl : getObjectFolders okRootTree = [["o".toList]] := by decide
  have key : ∀ p, IsObjectFolder okRootTree p → p = ["o".toList] := by
    intro p hp
    have hp := ((C58_exact_partial okRoot_good okRoot_noNesting okRoot_hierarchy).2 p).2 hp
    rw [hl] at hp
    simpa using hp
  obtain ⟨M, hM⟩ := (C84_completes_iff (w := ockWorld) (env := exEnv) (plain := false) (blank := ockInv) (fs := okRootFS)
    (exts := twinExts) okRoot_good okRoot_noNesting okRoot_hierarchy).2 (by
      intro p hp
      rw [key p hp]
      exact ⟨(ockInv, []), by decide, _, rfl⟩)
  refine ⟨M, hM, (C84_root_metadata_partial okRoot_good okRoot_noNesting okRoot_hierarchy hM ?_).1 _ okRoot_object⟩
  intro p q _ _ hp hq _ _ _
  rw [key p hp, key q hq]

/-! ## C85 -/

theorem folderPath_inj {p q : List Str} (hp : p ≠ []) (hq : q ≠ []) (h1 : ∀ c ∈ p, '/' ∉ c) (h2 : ∀ c ∈ q, '/' ∉ c)
    (h : folderPath p = folderPath q) : p = q := by
  unfold folderPath at h
  rw [← splitOn_joinWith_noSep hp h1, ← splitOn_joinWith_noSep hq h2, h]

theorem folderPath_under {p q : List Str} (hp : p ≠ []) (hq : q ≠ []) (h1 : ∀ c ∈ p, '/' ∉ c) (h2 : ∀ c ∈ q, '/' ∉ c)
    {r : Str} (h : folderPath p = under (folderPath q) r) : ∃ s, s ≠ [] ∧ p = q ++ s := by
  have hs : under (folderPath q) r = joinWith '/' (q ++ splitOn '/' r) := by
    unfold under folderPath
    rw [joinWith_append hq (by exact splitOn_ne_nil _ _), joinWith_splitOn]
  rw [hs] at h
  unfold folderPath at h
  have := congrArg (splitOn '/') h
  rw [splitOn_joinWith_noSep hp h1, splitOn_joinWith_noSep (by simp [hq])] at this
  · exact ⟨_, splitOn_ne_nil _ _, this⟩
  · intro c hc
    rcases List.mem_append.1 hc with hc | hc
    · exact h2 c hc
    · exact splitOn_noSep_mem hc

theorem objects_apart {t : FDir} {fs : FS} (T : TreeOf t fs) (G : GoodNames t) (hnest : NoNesting t) {p q : List Str}
    (hp : IsObjectFolder t p) (hq : IsObjectFolder t q) (hne : p ≠ q) : Apart (folderPath p) (folderPath q) := by
  have nest : ∀ {a b s : List Str}, IsObjectFolder t a → IsObjectFolder t b → s ≠ [] → a = b ++ s → False := by
    rintro a b s ⟨x, hx, hxo, _⟩ ⟨y, hy, hyo, _⟩ hs rfl
    obtain ⟨y', h1, h2⟩ := reach_split hx
    have := reach_unique G hy h1
    subst this
    exact hs (hnest b y s x hy hyo h2 hxo)
  obtain ⟨x, hx, _, hp0, _⟩ := id hp
  obtain ⟨y, hy, _, hq0, _⟩ := id hq
  have np : ∀ c ∈ p, '/' ∉ c := fun c hc => ((T.names p x hx).1 c hc).1
  have nq : ∀ c ∈ q, '/' ∉ c := fun c hc => ((T.names q y hy).1 c hc).1
  refine ⟨fun h => hne (folderPath_inj hp0 hq0 np nq h), ?_, ?_⟩
  · intro r h
    obtain ⟨s, hs, h⟩ := folderPath_under hp0 hq0 np nq h
    exact nest hp hq hs h
  · intro r h
    obtain ⟨s, hs, h⟩ := folderPath_under hq0 hp0 nq np h
    exact nest hq hp hs h

theorem extractFolders_ok {w : World} {load : Str → Res (Inv × List Fnd)} {fs : FS} {xp : Str → Str → ExtractPath} {v : Str}
    {wm : Bool} {area : Str} {ps : List (List Str)} (h : (extractFolders w load fs xp v wm area ps).2 = none) :
    ∀ p ∈ ps, ∃ r, load (folderPath p) = .ok r ∧
      (extract w r.1 (subFS fs (folderPath p)) (xp (folderPath p) []) v wm).err = none := by
  induction ps with
  | nil => intro p hp; cases hp
  | cons q ps ih =>
    rw [extractFolders] at h
    cases hl : load (folderPath q) with
    | error e => rw [hl] at h; cases h
    | ok r =>
      simp only [hl] at h
      cases hx : (extract w r.1 (subFS fs (folderPath q)) (xp (folderPath q) []) v wm).err with
      | some e => simp only [hx] at h; cases h
      | none =>
        simp only [hx] at h
        intro p hp
        rcases List.mem_cons.1 hp with rfl | hp
        · exact ⟨r, hl, hx⟩
        · exact ih h p hp

theorem extractFolders_target {w : World} {load : Str → Res (Inv × List Fnd)} {fs : FS} {xp : Str → Str → ExtractPath}
    {v : Str} {wm : Bool} {area : Str} {ps : List (List Str)} (hnd : ps.Nodup)
    (hap : ∀ p ∈ ps, ∀ q ∈ ps, p ≠ q → Apart (folderPath p) (folderPath q))
    (h : (extractFolders w load fs xp v wm area ps).2 = none) {p : List Str} (hp : p ∈ ps) {r : Inv × List Fnd}
    (hr : load (folderPath p) = .ok r) (tgt : FS) (hempty : ∀ x, mget tgt (under (folderPath p) x) = none) (x : Str) :
    mget (applyOps tgt (extractFolders w load fs xp v wm area ps).1) (under (folderPath p) x) =
      mget (applyOps [] (extract w r.1 (subFS fs (folderPath p)) (xp (folderPath p) []) v wm).trace) x := by
  induction ps generalizing tgt with
  | nil => cases hp
  | cons q ps ih =>
    obtain ⟨rq, hrq, hxq⟩ := extractFolders_ok h q (by simp)
    have hstep : extractFolders w load fs xp v wm area (q :: ps) =
        ((extract w rq.1 (subFS fs (folderPath q)) (xp (folderPath q) []) v wm).trace.map (FsOp.lift (folderPath q)) ++
          (extractFolders w load fs xp v wm area ps).1, (extractFolders w load fs xp v wm area ps).2) := by
      rw [extractFolders]
      simp only [hrq, hxq]
    rw [hstep] at h ⊢
    simp only at h ⊢
    rw [applyOps_append]
    have hnd' := List.nodup_cons.1 hnd
    by_cases hpq : p = q
    · subst hpq
      rw [hr] at hrq
      cases hrq
      have hrest : ∀ op ∈ (extractFolders w load fs xp v wm area ps).1, op.path ≠ under (folderPath p) x := by
        have : ∀ (qs : List (List Str)), (∀ q ∈ qs, Apart (folderPath q) (folderPath p)) →
            ∀ op ∈ (extractFolders w load fs xp v wm area qs).1, op.path ≠ under (folderPath p) x := by
          intro qs
          induction qs with
          | nil => intro _ op hop; rw [extractFolders] at hop; cases hop
          | cons a qs ih2 =>
            intro hqs op hop
            have hlift : ∀ (tr : List FsOp), op ∈ tr.map (FsOp.lift (folderPath a)) → op.path ≠ under (folderPath p) x := by
              intro tr hm
              obtain ⟨o, _, rfl⟩ := List.mem_map.1 hm
              rw [lift_path]
              exact under_apart (hqs a (by simp)) _ _
            rw [extractFolders] at hop
            split at hop
            · cases hop
            · simp only at hop
              split at hop
              · exact hlift _ hop
              · rcases List.mem_append.1 hop with hop | hop
                · exact hlift _ hop
                · exact ih2 (fun q hq => hqs q (List.mem_cons_of_mem _ hq)) op hop
        refine this ps (fun q hq => hap q (List.mem_cons_of_mem _ hq) p (by simp) ?_)
        rintro rfl
        exact hnd'.1 hq
      rw [mget_applyOps_ne hrest]
      exact mget_lift_under _ _ _ _ _ (fun y => (hempty y).symm)
    · have hin : p ∈ ps := (List.mem_cons.1 hp).resolve_left hpq
      refine ih hnd'.2 (fun a ha b hb => hap a (List.mem_cons_of_mem _ ha) b (List.mem_cons_of_mem _ hb)) h hin _ ?_
      intro y
      rw [mget_applyOps_ne]
      · exact hempty y
      · intro op hop
        obtain ⟨o, _, rfl⟩ := List.mem_map.1 hop
        rw [lift_path]
        exact under_apart (hap q (by simp) p hp (fun e => hpq e.symm)) _ _

/-- **C85, in full**: extraction of a whole storage root puts into the folder of each object what extraction of this
object alone gives for that version and area. -/
def C85_full : Prop :=
  ∀ (w : World) (env : Env) (plain : Bool) (blank : Inv) (fs : FS) (t : FDir) (xp : Str → Str → ExtractPath) (v : Str)
    (wm : Bool) (area : Str), TreeOf t fs → GoodNames t → NoNesting t → RootHierarchy t →
    (extractRoot w env plain blank fs t xp v wm area).2 = none →
    ∀ p, IsObjectFolder t p → ∃ r, loadByFolder w env plain blank fs (folderPath p) = .ok r ∧
      (extract w r.1 (subFS fs (folderPath p)) (xp (folderPath p) area) v wm).err = none ∧
      ∀ x, mget (applyOps [] (extractRoot w env plain blank fs t xp v wm area).1) (folderPath p ++ '/' :: x) =
        mget (applyOps [] (extract w r.1 (subFS fs (folderPath p)) (xp (folderPath p) area) v wm).trace) x

/-- C85 for the default area: the target folder of each object has the files the extraction of this object alone
gives. -/
theorem C85_root_extraction_partial {w : World} {env : Env} {plain : Bool} {blank : Inv} {fs : FS} {t : FDir}
    {xp : Str → Str → ExtractPath} {v : Str} {wm : Bool} {area : Str} (T : TreeOf t fs) (G : GoodNames t)
    (hnest : NoNesting t) (hh : RootHierarchy t) (h : (extractRoot w env plain blank fs t xp v wm area).2 = none)
    {p : List Str} (hp : IsObjectFolder t p) : ∃ r, loadByFolder w env plain blank fs (folderPath p) = .ok r ∧
      (extract w r.1 (subFS fs (folderPath p)) (xp (folderPath p) []) v wm).err = none ∧
      ∀ x, mget (applyOps [] (extractRoot w env plain blank fs t xp v wm area).1) (folderPath p ++ '/' :: x) =
        mget (applyOps [] (extract w r.1 (subFS fs (folderPath p)) (xp (folderPath p) []) v wm).trace) x := by
  obtain ⟨hnd, hlist⟩ := C58_exact_partial G hnest hh
  have hsel : ∀ r : Inv × List Fnd, extract w r.1 (subFS fs (folderPath p)) (xp (folderPath p) [])
      (if v = [] then "latest".toList else v) wm =
      extract w r.1 (subFS fs (folderPath p)) (xp (folderPath p) []) v wm := by
    intro r
    split
    · rename_i hv; subst hv; rfl
    · rfl
  unfold extractRoot at h ⊢
  obtain ⟨r, hr, hx⟩ := extractFolders_ok h p ((hlist p).2 hp)
  refine ⟨r, hr, by rw [← hsel]; exact hx, fun x => ?_⟩
  rw [← hsel]
  exact extractFolders_target hnd
    (fun a ha b hb hab => objects_apart T G hnest ((hlist a).1 ha) ((hlist b).1 hb) hab) h ((hlist p).2 hp) hr []
    (fun _ => rfl) x

theorem extractFolders_area {w : World} {load : Str → Res (Inv × List Fnd)} {fs : FS} {xp : Str → Str → ExtractPath} {v : Str}
    {wm : Bool} (area area' : Str) (ps : List (List Str)) :
    extractFolders w load fs xp v wm area ps = extractFolders w load fs xp v wm area' ps := by
  induction ps with
  | nil => rfl
  | cons p ps ih => rw [extractFolders, extractFolders, ih]

/-- C85 is violated: the area asked for makes no difference. -/
theorem C85_full_fails_area (w : World) (env : Env) (plain : Bool) (blank : Inv) (fs : FS) (t : FDir)
    (xp : Str → Str → ExtractPath) (v : Str) (wm : Bool) (area area' : Str) :
    extractRoot w env plain blank fs t xp v wm area = extractRoot w env plain blank fs t xp v wm area' :=
  extractFolders_area area area' _

/-- **C85 is violated**: area `full` of a root whose object keeps its files outside of the default area. -/
theorem C85_full_fails : ¬ C85_full := by
  intro h
  obtain ⟨r, h1, _, h3⟩ := h ockWorld exEnv false ockInv okRootFS okRootTree (fun _ => subPathXp exSubX) [] false
    "full".toList okRoot_tree okRoot_good okRoot_noNesting okRoot_hierarchy (by decide) ["o".toList] okRoot_object
  have e1 : loadByFolder ockWorld exEnv false ockInv okRootFS (folderPath ["o".toList]) = .ok (ockInv, []) := by decide
  rw [e1] at h1
  cases h1
  have h3 := h3 "a".toList
  exact absurd h3 (by decide)

/-- the object of `okRootFS` is extracted into the folder `o` -/
example : ∃ r, loadByFolder ockWorld exEnv false ockInv okRootFS (folderPath ["o".toList]) = .ok r ∧
    (extract ockWorld r.1 (subFS okRootFS (folderPath ["o".toList])) (fun n => .ok (some n)) [] false).err = none ∧
    ∀ x, mget (applyOps [] (extractRoot ockWorld exEnv false ockInv okRootFS okRootTree (fun _ _ n => .ok (some n)) [] false []).1)
      (folderPath ["o".toList] ++ '/' :: x) =
      mget (applyOps [] (extract ockWorld r.1 (subFS okRootFS (folderPath ["o".toList])) (fun n => .ok (some n)) [] false).trace) x :=
  C85_root_extraction_partial (xp := fun _ _ n => .ok (some n)) okRoot_tree okRoot_good okRoot_noNesting okRoot_hierarchy
    (by decide) okRoot_object

/-! ## C86 -/

theorem readIndex_ok {V : Type} {strict : Bool} {read : Str → Res Bytes} {lines : Bytes → Res (List (Str × V))} {man : DMap}
    {v : Str} {vs : List Str} {acc M : AMap Str V} (h : readIndex strict read lines man (v :: vs) acc = .ok M) :
    (∃ b ls, read v = .ok b ∧ lines b = .ok ls ∧
      readIndex strict read lines man vs (ls.foldl (fun a l => mset a (pathDigest man l.1) l.2) acc) = .ok M) ∨
    (strict = false ∧ (∃ e, read v = .error (.error e)) ∧ readIndex strict read lines man vs acc = .ok M) := by
  rw [readIndex] at h
  split at h
  · cases h
  · split at h
    · cases h
    · rename_i e he hs
      exact .inr ⟨by simpa using hs, ⟨e, he⟩, h⟩
  · rename_i b hb
    obtain ⟨ls, h1, h2⟩ := res_bind_eq_ok.1 h
    exact .inl ⟨b, ls, hb, h1, h2⟩

/-- a line of the index file of version `v` -/
def IndexLine {V : Type} (read : Str → Res Bytes) (lines : Bytes → Res (List (Str × V))) (v p : Str) (x : V) : Prop :=
  ∃ b ls, read v = .ok b ∧ lines b = .ok ls ∧ (p, x) ∈ ls

theorem foldl_mset_sound {V : Type} (f : Str → Str) (ls : List (Str × V)) (acc : AMap Str V) {k : Str} {x : V}
    (h : mget (ls.foldl (fun a l => mset a (f l.1) l.2) acc) k = some x) :
    mget acc k = some x ∨ ∃ p, (p, x) ∈ ls ∧ f p = k := by
  induction ls generalizing acc with
  | nil => exact .inl h
  | cons l ls ih =>
    rcases ih _ h with h | ⟨p, h1, h2⟩
    · by_cases hk : f l.1 = k
      · subst hk
        rw [mget_mset_self] at h
        cases h
        exact .inr ⟨l.1, by simp, rfl⟩
      · exact .inl ((mget_mset_ne acc hk l.2).symm.trans h)
    · exact .inr ⟨p, List.mem_cons_of_mem _ h1, h2⟩

theorem foldl_mset_complete {V : Type} (f : Str → Str) (ls : List (Str × V)) (acc : AMap Str V) {k : Str}
    (h : (∃ x, mget acc k = some x) ∨ ∃ l ∈ ls, f l.1 = k) :
    ∃ x, mget (ls.foldl (fun a l => mset a (f l.1) l.2) acc) k = some x := by
  induction ls generalizing acc with
  | nil =>
    rcases h with h | ⟨l, hl, _⟩
    · exact h
    · cases hl
  | cons l ls ih =>
    refine ih _ ?_
    by_cases hk : f l.1 = k
    · subst hk
      exact .inl ⟨_, mget_mset_self _ _ _⟩
    · rcases h with ⟨x, h⟩ | ⟨l', hl, h⟩
      · exact .inl ⟨x, (mget_mset_ne acc hk l.2).trans h⟩
      · rcases List.mem_cons.1 hl with rfl | hl
        · exact absurd h hk
        · exact .inr ⟨l', hl, h⟩

theorem readIndex_sound {V : Type} {strict : Bool} {read : Str → Res Bytes} {lines : Bytes → Res (List (Str × V))} {man : DMap}
    {vs : List Str} {acc M : AMap Str V} (h : readIndex strict read lines man vs acc = .ok M) {k : Str} {x : V}
    (hk : mget M k = some x) :
    mget acc k = some x ∨ ∃ v ∈ vs, ∃ p, IndexLine read lines v p x ∧ pathDigest man p = k := by
  induction vs generalizing acc with
  | nil => rw [readIndex] at h; cases h; exact .inl hk
  | cons v vs ih =>
    rcases readIndex_ok h with ⟨b, ls, h1, h2, h3⟩ | ⟨_, _, h3⟩
    · rcases ih h3 with h4 | ⟨v', hv, h4⟩
      · rcases foldl_mset_sound _ _ _ h4 with h4 | ⟨p, h4, h5⟩
        · exact .inl h4
        · exact .inr ⟨v, by simp, p, ⟨b, ls, h1, h2, h4⟩, h5⟩
      · exact .inr ⟨v', List.mem_cons_of_mem _ hv, h4⟩
    · rcases ih h3 with h4 | ⟨v', hv, h4⟩
      · exact .inl h4
      · exact .inr ⟨v', List.mem_cons_of_mem _ hv, h4⟩

theorem readIndex_complete {V : Type} {strict : Bool} {read : Str → Res Bytes} {lines : Bytes → Res (List (Str × V))}
    {man : DMap} {vs : List Str} {acc M : AMap Str V} (h : readIndex strict read lines man vs acc = .ok M) {k : Str}
    (hk : (∃ x, mget acc k = some x) ∨ ∃ v ∈ vs, ∃ p x, IndexLine read lines v p x ∧ pathDigest man p = k) :
    ∃ x, mget M k = some x := by
  induction vs generalizing acc with
  | nil =>
    rw [readIndex] at h
    cases h
    rcases hk with hk | ⟨v, hv, _⟩
    · exact hk
    · cases hv
  | cons v vs ih =>
    rcases readIndex_ok h with ⟨b, ls, h1, h2, h3⟩ | ⟨_, ⟨e, he⟩, h3⟩
    · refine ih h3 ?_
      rcases hk with hk | ⟨v', hv, p, x, hl, hp⟩
      · exact .inl (foldl_mset_complete _ _ _ (.inl hk))
      · rcases List.mem_cons.1 hv with rfl | hv
        · obtain ⟨b', ls', h4, h5, h6⟩ := hl
          rw [h1] at h4
          cases h4
          rw [h2] at h5
          cases h5
          exact .inl (foldl_mset_complete _ _ _ (.inr ⟨_, h6, hp⟩))
        · exact .inr ⟨v', hv, p, x, hl, hp⟩
    · refine ih h3 ?_
      rcases hk with hk | ⟨v', hv, p, x, hl, hp⟩
      · exact .inl hk
      · rcases List.mem_cons.1 hv with rfl | hv
        · obtain ⟨b', ls', h4, _⟩ := hl
          rw [he] at h4
          cases h4
        · exact .inr ⟨v', hv, p, x, hl, hp⟩

theorem readIndex_completes {V : Type} {read : Str → Res Bytes} {lines : Bytes → Res (List (Str × V))} {man : DMap}
    {vs : List Str} {acc : AMap Str V} :
    (∃ M, readIndex true read lines man vs acc = .ok M) ↔ ∀ v ∈ vs, ∃ b ls, read v = .ok b ∧ lines b = .ok ls := by
  induction vs generalizing acc with
  | nil => simp [readIndex]
  | cons v vs ih =>
    constructor
    · rintro ⟨M, h⟩
      rcases readIndex_ok h with ⟨b, ls, h1, h2, h3⟩ | ⟨h, _⟩
      · intro v' hv
        rcases List.mem_cons.1 hv with rfl | hv
        · exact ⟨b, ls, h1, h2⟩
        · exact (ih.1 ⟨M, h3⟩) v' hv
      · cases h
    · intro h
      obtain ⟨b, ls, h1, h2⟩ := h v (by simp)
      obtain ⟨M, hM⟩ := (ih (acc := ls.foldl (fun a l => mset a (pathDigest man l.1) l.2) acc)).2
        (fun v' hv => h v' (List.mem_cons_of_mem _ hv))
      refine ⟨M, ?_⟩
      rw [readIndex, h1]
      simp only [h2, res_bind_ok]
      exact hM

/-- the manifest lists `p` under the digest `d` -/
def UnderDigest (man : DMap) (p d : Str) : Prop := ∃ ps, (d, ps) ∈ man ∧ p ∈ ps

/-- no path is listed under two digests -/
def PathsFunctional (man : DMap) : Prop := ∀ p d d', UnderDigest man p d → UnderDigest man p d' → d = d'

theorem pathDigest_eq {man : DMap} (hf : PathsFunctional man) {p d : Str} (h : UnderDigest man p d) :
    pathDigest man p = d := by
  obtain ⟨ps, h1, h2⟩ := h
  unfold pathDigest
  cases hl : (man.filter (fun e => decide (p ∈ e.2))).getLast? with
  | none =>
    rw [List.getLast?_eq_none_iff] at hl
    have : (d, ps) ∈ man.filter (fun e => decide (p ∈ e.2)) := List.mem_filter.2 ⟨h1, by simpa using h2⟩
    rw [hl] at this
    cases this
  | some e =>
    have hm := List.mem_filter.1 (List.mem_of_getLast? hl)
    exact hf p e.1 d ⟨e.2, hm.1, by simpa using hm.2⟩ ⟨ps, h1, h2⟩

theorem pathDigest_unlisted {man : DMap} {p : Str} (h : ∀ d, ¬ UnderDigest man p d) : pathDigest man p = [] := by
  unfold pathDigest
  have : man.filter (fun e => decide (p ∈ e.2)) = [] := by
    rw [List.filter_eq_nil_iff]
    intro e he hp
    exact h e.1 ⟨e.2, he, by simpa using hp⟩
  rw [this]
  rfl

/-- the index file of a version, read -/
abbrev indexFile (c : Compr) (exts : List PathExt) (folder : Str) (cfg : MetaCfg) (inv : Inv) (fs : FS) (v : Str) : Res Bytes :=
  readJsonL c exts folder inv fs "indexer".toList v cfg

/-- the calls of a session that store no content -/
def NoContentCalls (s : Session) : Prop :=
  ∀ c ∈ s.calls, (∀ p a d x, c ≠ .add p a d x) ∧ ∀ f a d, c ≠ .reader f a d

/-- **C86, in full**: technical metadata that could be read can still be read after a further session with safe names,
provided that the session either stores no content or its index file is there and can be read. -/
def C86_full : Prop :=
  ∀ (V : Type) (w : World) (c : Compr) (exts : List PathExt) (folder : Str) (cfg : MetaCfg)
    (lines : Bytes → Res (List (Str × V))) (inv : Inv) (fs : FS) (n : Nat) (s : Session) (M : AMap Str V), Sound inv n →
    SafeNames w s → indexerMeta c exts folder cfg lines inv fs = .ok M → (session w inv s).err = none →
    (NoContentCalls s ∨ ∃ b ls, indexFile c exts folder cfg (session w inv s).obj.inv
      (applyOps fs (session w inv s).obj.trace) (session w inv s).obj.inv.head = .ok b ∧ lines b = .ok ls) →
    ∃ M', indexerMeta c exts folder cfg lines (session w inv s).obj.inv (applyOps fs (session w inv s).obj.trace) = .ok M'

/-- Exactly when the metadata can be read: each version has an index file that can be read. -/
theorem C86_completes_iff {V : Type} {c : Compr} {exts : List PathExt} {folder : Str} {cfg : MetaCfg}
    {lines : Bytes → Res (List (Str × V))} {inv : Inv} {fs : FS} :
    (∃ M, indexerMeta c exts folder cfg lines inv fs = .ok M) ↔
      ∀ v ∈ mkeys inv.versions, ∃ b ls, indexFile c exts folder cfg inv fs v = .ok b ∧ lines b = .ok ls :=
  readIndex_completes

/-- What is reported for a content file was stored for one of its paths; and each line about a path of a content file is
reported or replaced by another one about the same content.  Lines about other paths go to the object. -/
theorem C86_reported_exact {V : Type} {c : Compr} {exts : List PathExt} {folder : Str} {cfg : MetaCfg}
    {lines : Bytes → Res (List (Str × V))} {inv : Inv} {fs : FS} {M : AMap Str V} (hf : PathsFunctional inv.manifest)
    (h : indexerMeta c exts folder cfg lines inv fs = .ok M) :
    (∀ d x, d ≠ [] → mget M d = some x → ∃ v ∈ mkeys inv.versions, ∃ p, UnderDigest inv.manifest p d ∧
      IndexLine (indexFile c exts folder cfg inv fs) lines v p x) ∧
    (∀ v ∈ mkeys inv.versions, ∀ p d x, UnderDigest inv.manifest p d →
      IndexLine (indexFile c exts folder cfg inv fs) lines v p x → ∃ x', mget M d = some x') ∧
    (∀ v ∈ mkeys inv.versions, ∀ p x, (∀ d, ¬ UnderDigest inv.manifest p d) →
      IndexLine (indexFile c exts folder cfg inv fs) lines v p x → ∃ x', mget M [] = some x') := by
  refine ⟨?_, ?_, ?_⟩
  · intro d x hd hx
    rcases readIndex_sound h hx with h1 | ⟨v, hv, p, hl, hp⟩
    · cases h1
    · refine ⟨v, hv, p, ?_, hl⟩
      by_cases hu : ∃ d', UnderDigest inv.manifest p d'
      · obtain ⟨d', hu⟩ := hu
        rw [pathDigest_eq hf hu] at hp
        subst hp
        exact hu
      · rw [pathDigest_unlisted (fun d' hd' => hu ⟨d', hd'⟩)] at hp
        exact absurd hp.symm hd
  · intro v hv p d x hu hl
    exact readIndex_complete h (.inr ⟨v, hv, p, x, hl, pathDigest_eq hf hu⟩)
  · intro v hv p x hu hl
    exact readIndex_complete h (.inr ⟨v, hv, p, x, hl, pathDigest_unlisted hu⟩)

/-- C86 for index files kept in the content, if each new version has its own: they stay readable whatever sessions with
safe names complete or crash. -/
theorem C86_stays_readable_partial {V : Type} {w : World} {c : Compr} {exts : List PathExt} {folder : Str} {cfg : MetaCfg}
    {lines : Bytes → Res (List (Str × V))} {inv0 inv : Inv} {fs0 fs : FS} {n : Nat} {ext : Str} {M : AMap Str V}
    (h0 : Sound inv0 n) (hl : Later w (SafeNames w) inv0 fs0 inv fs) (he : comprExt cfg.compress = some ext)
    (ht : ∀ v ∈ mkeys inv0.versions, ∃ p, jsonlTarget exts folder inv0 "indexer".toList v ext cfg = .ok p ∧ Listed inv0 p)
    (h : indexerMeta c exts folder cfg lines inv0 fs0 = .ok M)
    (hnew : ∀ v ∈ mkeys inv.versions, v ∉ mkeys inv0.versions →
      ∃ b ls, indexFile c exts folder cfg inv fs v = .ok b ∧ lines b = .ok ls) :
    ∃ M', indexerMeta c exts folder cfg lines inv fs = .ok M' := by
  rw [C86_completes_iff]
  intro v hv
  by_cases hm : v ∈ mkeys inv0.versions
  · obtain ⟨b, ls, h1, h2⟩ := C86_completes_iff.1 ⟨M, h⟩ v hm
    obtain ⟨p, h3, h4⟩ := ht v hm
    exact ⟨b, ls, C61_read_later_partial h0 hl he h3 h4 h1, h2⟩
  · exact hnew v hv hm

/-- an object whose two versions have index files -/
def idxInv : Inv := { exInv with manifest :=
  [("d1".toList, ["v1/content/a".toList]), ("d2".toList, ["v1/content/indexer_v1.jsonl.gz".toList]),
   ("d3".toList, ["v2/content/indexer_v2.jsonl.gz".toList])] }

theorem idxInv_sound : Sound idxInv 2 := by
  refine ⟨⟨⟨exInv_gapFree.1, exInv_gapFree.2⟩, exInv_mapKeysOk⟩, by decide, exInv_contentDir, ?_⟩
  rintro p ⟨d, m, h1, h2⟩
  simp only [idxInv, List.mem_cons, List.not_mem_nil, or_false, Prod.mk.injEq] at h1
  rcases h1 with ⟨_, rfl⟩ | ⟨_, rfl⟩ | ⟨_, rfl⟩
  · simp only [List.mem_cons, List.not_mem_nil, or_false] at h2
    subst h2
    exact ⟨1, by decide, by decide, "content/a".toList, by decide⟩
  · simp only [List.mem_cons, List.not_mem_nil, or_false] at h2
    subst h2
    exact ⟨1, by decide, by decide, "content/indexer_v1.jsonl.gz".toList, by decide⟩
  · simp only [List.mem_cons, List.not_mem_nil, or_false] at h2
    subst h2
    exact ⟨2, by decide, by decide, "content/indexer_v2.jsonl.gz".toList, by decide⟩

def idxFS : FS := [("v1/content/a".toList, [3]), ("v1/content/indexer_v1.jsonl.gz".toList, [2, 7]),
  ("v2/content/indexer_v2.jsonl.gz".toList, [2])]

/-- each byte is an entry about the file `a` -/
def idxLines (b : Bytes) : Res (List (Str × Nat)) := .ok (b.map (fun x => ("v1/content/a".toList, x.toNat)))

theorem idx_readable : indexerMeta exCompr [] [] exMetaCfg idxLines idxInv idxFS = .ok [("d1".toList, 7)] := by decide

/-- a session that stores a file and the index file of its version -/
def idxSession : Session :=
  { exSession [] with body := [.add "c".toList [] [3] true, .add "indexer_v3.jsonl.gz".toList [] [2, 8] true] }

theorem idxSession_safe : SafeNames exWorld4 idxSession := by
  intro x hx i hi
  have hx : x ∈ [("c".toList, []), ("indexer_v3.jsonl.gz".toList, [])] := hx
  have hi : (Except.ok x.1 : Res Str) = .ok i := hi
  cases hi
  simp only [List.mem_cons, List.not_mem_nil, or_false] at hx
  rcases hx with rfl | rfl
  · exact ⟨0, by decide⟩
  · exact ⟨0, by decide⟩

example : ∃ inv fs M', inv.head = "v3".toList ∧ indexerMeta exCompr [] [] exMetaCfg idxLines inv fs = .ok M' := by
  have hn : ∀ v ∈ mkeys (stampInv exWorld4.time (session exWorld4 idxInv idxSession).obj.inv).versions,
      v ∉ mkeys idxInv.versions → v = "v3".toList := by decide
  obtain ⟨M', h⟩ := C86_stays_readable_partial (w := exWorld4) (ext := ".gz".toList) idxInv_sound
    (.completed idxSession (stampInv exWorld4.time (session exWorld4 idxInv idxSession).obj.inv) .now idxSession_safe
      (by decide) (by decide) (sameInv_refl _))
    (show comprExt exMetaCfg.compress = some ".gz".toList by decide)
    (by
      intro v hv
      have hv : v ∈ ["v2".toList, "v1".toList] := hv
      simp only [List.mem_cons, List.not_mem_nil, or_false] at hv
      rcases hv with rfl | rfl
      · exact ⟨"v2/content/indexer_v2.jsonl.gz".toList, by decide, "d3".toList,
          ["v2/content/indexer_v2.jsonl.gz".toList], by decide, List.Mem.head _⟩
      · exact ⟨"v1/content/indexer_v1.jsonl.gz".toList, by decide, "d2".toList,
          ["v1/content/indexer_v1.jsonl.gz".toList], by decide, List.Mem.head _⟩)
    idx_readable
    (by
      intro v h1 h2
      rw [hn v h1 h2]
      exact ⟨[8], _, by decide, rfl⟩)
  exact ⟨_, _, M', by decide, h⟩

def idxRename : Session := { exSession [] with body := [.rename "a".toList "c".toList "d1".toList] }

/-- **C86 is violated**: after a session that only renames a file the metadata of the object cannot be read. -/
theorem C86_full_fails : ¬ C86_full := by
  intro h
  obtain ⟨M', hM⟩ := h Nat exWorld4 exCompr [] [] exMetaCfg idxLines idxInv idxFS 2 idxRename _ idxInv_sound
    (by intro x hx; cases hx) idx_readable (by decide)
    (.inl (by
      intro c hc
      have hc : c ∈ [Call.rename "a".toList "c".toList "d1".toList] := hc
      simp only [List.mem_singleton] at hc
      subst hc
      exact ⟨fun _ _ _ _ h => (by cases h), fun _ _ _ h => (by cases h)⟩))
  have := C86_completes_iff.1 ⟨M', hM⟩ "v3".toList (by decide)
  obtain ⟨b, ls, h1, _⟩ := this
  have e : indexFile exCompr [] [] exMetaCfg (session exWorld4 idxInv idxRename).obj.inv
    (applyOps idxFS (session exWorld4 idxInv idxRename).obj.trace) "v3".toList = .error (.error "cannot open") := by decide
  rw [e] at h1
  cases h1

/-- and the metadata of the whole storage root neither -/
theorem C86_breaks_root {V : Type} {w : World} {env : Env} {plain : Bool} {blank : Inv} {fs : FS} {t : FDir}
    {exts : Str → Inv → List (Str × Res (AMap Str V))} (G : GoodNames t) (hnest : NoNesting t) (hh : RootHierarchy t)
    {p : List Str} (hp : IsObjectFolder t p) {r : Inv × List Fnd}
    (hr : loadByFolder w env plain blank fs (folderPath p) = .ok r) {name : Str} {e : GoErr}
    (he : (name, .error e) ∈ exts (folderPath p) r.1) : ¬ ∃ M, extractMeta w env plain blank fs t exts = .ok M := by
  rw [C84_completes_iff G hnest hh]
  intro h
  obtain ⟨r', h1, m, h2⟩ := h p hp
  rw [hr] at h1
  cases h1
  obtain ⟨em, h3, _⟩ := res_bind_eq_ok.1 h2
  have key : ∀ (l : List (Str × Res (AMap Str V))) (acc em : AMap Str (AMap Str V)), (name, .error e) ∈ l →
      mergeMeta l acc = .ok em → False := by
    intro l
    induction l with
    | nil => intro _ _ h; cases h
    | cons a l ih =>
      intro acc em hm h
      obtain ⟨n, x⟩ := a
      rcases List.mem_cons.1 hm with h4 | h4
      · cases h4
        rw [mergeMeta] at h
        cases h
      · cases x with
        | error e => rw [mergeMeta] at h; cases h
        | ok y => rw [mergeMeta] at h; exact ih _ _ h4 h
  exact key _ _ _ he h3

end Gocfl
