import Verif.Model.MetaFile
import Verif.Props.JsonL

/-!
# The metadata file of an object (C102–C105)
-/

namespace Gocfl

/-- The settings of `cfg` as those of the other extensions. -/
def MetaFileCfg.store (cfg : MetaFileCfg) : MetaCfg := ⟨[], cfg.storageType, cfg.storageName⟩

theorem trimLeft_cleanRel {p : Str} (h : CleanRel p) : trimLeft p "/".toList = p := by
  obtain ⟨cs, hne, hv, rfl⟩ := h
  cases cs with
  | nil => exact absurd rfl hne
  | cons c cs =>
    have hc := hv c (by simp)
    cases c with
    | nil => exact absurd rfl hc.1
    | cons x c =>
      have hx : x ≠ '/' := fun h => hc.2.2.2 (by simp [h])
      have : ∃ t, joinWith '/' ((x :: c) :: cs) = x :: t := by
        cases cs with
        | nil => exact ⟨c, rfl⟩
        | cons d ds => exact ⟨_, by rw [joinWith_cons (by simp)]; rfl⟩
      obtain ⟨t, ht⟩ := this
      rw [ht]
      unfold trimLeft
      rw [List.dropWhile_cons_of_neg]
      simpa using hx

theorem pathJoin_three {p s q : Str} (hp : CleanRel p) (hs : CleanRel s) (hq : CleanRel q) :
    pathJoin [p, s, q] = p ++ '/' :: (s ++ '/' :: q) := by
  have hne := hp.ne_nil
  cases p with
  | nil => exact absurd rfl hne
  | cons c p => exact (hp.join (hs.join hq)).clean

theorem pathJoin_three_nil {s q : Str} (hs : CleanRel s) (hq : CleanRel q) : pathJoin [[], s, q] = s ++ '/' :: q := by
  have : pathJoin [[], s, q] = pathJoin [s, q] := by
    have hne := hs.ne_nil
    cases s with
    | nil => exact absurd rfl hne
    | cons c s => rfl
  rw [this, pathJoin_two hs hq]

/-- the file written by a successful `storeMeta` -/
def MetaWritesTo (exts : List PathExt) (folder : Str) (inv : Inv) (cfg : MetaFileCfg) (p : Str) : Prop :=
  (toLower cfg.storageType = "area".toList ∧ ∃ i,
    manifestChain exts (trimLeft cfg.metaName "/".toList) cfg.storageName false = .ok i ∧ p = buildManifestName inv i) ∨
  (toLower cfg.storageType = "path".toList ∧ ∃ path i, areaChain exts "content".toList false = .ok path ∧
    manifestChain exts (trimLeft (pathJoin [path, cfg.storageName, cfg.metaName]) "/".toList) [] false = .ok i ∧
    p = buildManifestName inv i) ∨
  (toLower cfg.storageType = "extension".toList ∧
    p = extPath (folder ++ '/' :: trimLeft (pathJoin [cfg.storageName, cfg.metaName]) "/".toList))

theorem storeMeta_spec {J : Type} {m : MetaFileWorld J} {o : Obj} {data : Bytes} (h : (storeMeta m o data).err = none) :
    ∃ p, MetaWritesTo m.exts m.folder o.inv m.cfg p ∧ (storeMeta m o data).obj.trace = o.trace ++ writeFile p data ∧
      HeadOnly o.inv (storeMeta m o data).obj.inv := by
  revert h
  unfold storeMeta
  split
  · rename_i ht
    intro h
    obtain ⟨i, k1, k2, k3⟩ := objAddReader_one h
    exact ⟨_, Or.inl ⟨ht, i, k1, rfl⟩, k2, k3⟩
  · split
    · rename_i ht
      cases h3 : areaChain m.exts "content".toList false with
      | error e => intro h; cases h
      | ok path =>
        simp only
        intro h
        obtain ⟨i, k1, k2, k3⟩ := objAddReader_one h
        exact ⟨_, Or.inr (Or.inl ⟨ht, path, i, h3, k1, rfl⟩), k2, k3⟩
    · split
      · rename_i ht
        intro _
        exact ⟨_, Or.inr (Or.inr ⟨ht, rfl⟩), rfl, HeadOnly.refl _⟩
      · intro h; cases h

theorem metaTarget_congr {exts : List PathExt} {folder : Str} {a b : Inv} (h : b.contentDirectory = a.contentDirectory)
    (version : Str) (cfg : MetaFileCfg) : metaTarget exts folder b version cfg = metaTarget exts folder a version cfg := by
  have : ∀ s v, buildManifestNameVersion b s v = buildManifestNameVersion a s v := by
    intro s v; unfold buildManifestNameVersion Inv.contentDir; rw [h]
  unfold metaTarget
  simp only [this]

/-- what was stored is looked for where it was stored -/
theorem metaTarget_found {subs : List SubPathExt} {folder : Str} {inv : Inv} {p : Str} {cfg : MetaFileCfg}
    (hv : ValidComp inv.head) (hc : ValidComp inv.contentDir) (hn : CleanRel cfg.metaName)
    (hsn : cfg.storageType ≠ "area".toList → CleanRel cfg.storageName)
    (hcp : cfg.storageType = "path".toList → ∀ e ∈ subs, AreasClean e)
    (hf : MetaFindable subs cfg.store) (hw : MetaWritesTo (subs.map SubPathExt.toPathExt) folder inv cfg p) :
    metaTarget (subs.map SubPathExt.toPathExt) folder inv inv.head cfg = .ok p := by
  have l1 : toLower "area".toList = "area".toList := by decide
  have l2 : toLower "path".toList = "path".toList := by decide
  have l3 : toLower "extension".toList = "extension".toList := by decide
  have n12 : "area".toList ≠ "path".toList := by decide
  have n13 : "area".toList ≠ "extension".toList := by decide
  have n23 : "path".toList ≠ "extension".toList := by decide
  unfold MetaFileCfg.store at hf
  rcases hf with ht | ⟨rfl, ht | ht⟩ | ⟨e, rfl, ⟨ht, hcl, hs1, hs2⟩ | ⟨ht, hfull⟩⟩ <;> simp only at ht
  · rcases hw with ⟨h, _⟩ | ⟨h, _⟩ | ⟨_, rfl⟩
    · rw [ht, l3] at h; exact absurd h.symm n13
    · rw [ht, l3] at h; exact absurd h.symm n23
    · have hs := hsn (by rw [ht]; exact n13.symm)
      unfold metaTarget
      rw [ht, if_neg n13.symm, if_neg n23.symm, if_pos rfl, pathJoin_two hs hn]
  · rcases hw with ⟨_, i, h1, rfl⟩ | ⟨h, _⟩ | ⟨h, _⟩
    · rw [trimLeft_cleanRel hn] at h1
      cases h1
      unfold metaTarget
      rw [ht, if_pos rfl]
      simp only [List.map_nil, areaChain, Bool.false_eq_true, if_false, res_bind_ok, List.nil_append]
      rw [buildManifestNameVersion_slash hv hc]
      rfl
    · rw [ht, l1] at h; exact absurd h n12
    · rw [ht, l1] at h; exact absurd h n13
  · rcases hw with ⟨h, _⟩ | ⟨_, path, i, h0, h1, rfl⟩ | ⟨h, _⟩
    · rw [ht, l2] at h; exact absurd h.symm n12
    · have hs := hsn (by rw [ht]; exact n12.symm)
      cases h0
      rw [pathJoin_three_nil hs hn, trimLeft_cleanRel (hs.join hn)] at h1
      cases h1
      unfold metaTarget
      rw [ht, if_neg n12.symm, if_pos rfl]
      simp only [List.map_nil, areaChain, Bool.false_eq_true, if_false, res_bind_ok, List.nil_append]
      rw [buildManifestNameVersion_slash hv hc]
      rfl
    · rw [ht, l2] at h; exact absurd h n23
  · rcases hw with ⟨_, i, h1, rfl⟩ | ⟨h, _⟩ | ⟨h, _⟩
    · rw [trimLeft_cleanRel hn] at h1
      obtain ⟨x, hb, rfl⟩ := chain_sub h1
      unfold SubPathExt.build at hb
      simp only [if_neg hs1, if_neg hs2] at hb
      cases hm : mget e.paths cfg.storageName with
      | none => rw [hm] at hb; cases hb
      | some s =>
        rw [hm] at hb
        cases hb
        unfold metaTarget
        rw [ht, if_pos rfl]
        simp only [List.map_cons, List.map_nil, areaChain_sub hm, res_bind_ok]
        rcases hcl _ _ hm with rfl | hs
        · have : pathJoin [[], cfg.metaName] = cfg.metaName := by
            have h2 : ∀ x, x ≠ [] → pathJoin [[], x] = pathClean x := by
              intro x hx
              cases x with
              | nil => exact absurd rfl hx
              | cons c t => rfl
            rw [h2 _ hn.ne_nil, hn.clean]
          rw [this, if_neg hn.ne_nil, List.nil_append, buildManifestNameVersion_slash hv hc]
          rfl
        · rw [pathJoin_two hs hn, if_neg (hs.join hn).ne_nil]
          rfl
    · rw [ht, l1] at h; exact absurd h n12
    · rw [ht, l1] at h; exact absurd h n13
  · rcases hw with ⟨h, _⟩ | ⟨_, path, i, h0, h1, rfl⟩ | ⟨h, _⟩
    · rw [ht, l2] at h; exact absurd h.symm n12
    · have hs := hsn (by rw [ht]; exact n12.symm)
      have hcl := hcp ht e (by simp)
      obtain ⟨x, hb, rfl⟩ := chain_sub h1
      unfold SubPathExt.build at hb
      simp only [hfull, if_true] at hb
      cases hb
      unfold metaTarget
      rw [ht, if_neg n12.symm, if_pos rfl, h0, res_bind_ok]
      have hpath : path = [] ∨ CleanRel path := by
        simp only [List.map_cons, List.map_nil, areaChain, SubPathExt.toPathExt, SubPathExt.areaPath] at h0
        cases hm : mget e.paths "content".toList with
        | none => rw [hm] at h0; simp at h0
        | some s =>
          rw [hm] at h0
          simp only at h0
          by_cases hs0 : s = []
          · rw [if_pos hs0] at h0; simp at h0; exact Or.inl h0
          · rw [if_neg hs0] at h0
            cases h0
            exact (hcl _ _ hm).imp_right id
      rcases hpath with rfl | hpc
      · rw [pathJoin_three_nil hs hn, trimLeft_cleanRel (hs.join hn), if_neg (hs.join hn).ne_nil, List.nil_append,
          buildManifestNameVersion_slash hv hc]
        rfl
      · rw [pathJoin_three hpc hs hn, trimLeft_cleanRel (hpc.join (hs.join hn)), if_neg (hpc.join (hs.join hn)).ne_nil]
        rfl
    · rw [ht, l2] at h; exact absurd h n23

/-! ## C102 -/

/-- `GetMetadata` reports what the stored bytes `data` say. -/
def Reports {J : Type} (m : MetaFileWorld J) (info : AMap Str Bytes) (inv : Inv) (fs : FS) (data : Bytes) : Prop :=
  ∃ j, m.asMap data = some j ∧ metaGet m info inv fs = .ok (some j)

/-- **C102, full statement** (false): metadata given with an update is reported afterwards, by every process. -/
def C102_full : Prop :=
  ∀ (J : Type) (m : MetaFileWorld J) (subs : List SubPathExt) (st : MetaSt) (n : Nat) (u : Url) (data : Bytes) (fs : FS),
    m.exts = subs.map SubPathExt.toPathExt → (∀ e ∈ subs, AreasClean e) → CleanRel m.cfg.metaName →
    CleanRel m.cfg.storageName → WF st.obj.inv n → 0 < n → ValidComp st.obj.inv.contentDir →
    m.source = some u → u.path ≠ [] → st.stored = false → metaData m u st.obj.inv.id = .ok data →
    (metaBefore m st).err = none →
    Reports m [] (metaBefore m st).st.obj.inv (applyOps fs (metaBefore m st).st.obj.trace) data

theorem versions_newest {inv : Inv} {n : Nat} (h : GapFree inv n) (hn : 0 < n) :
    ∃ t, (getVersionStrings inv).reverse = inv.head :: t := by
  obtain ⟨k, rfl⟩ : ∃ k, n = k + 1 := ⟨n - 1, by omega⟩
  rw [C20_version_listing h, List.range_succ, List.map_append, List.reverse_append, h.head_eq hn]
  exact ⟨_, rfl⟩

/-- what a successful update does -/
theorem metaBefore_ok {J : Type} {m : MetaFileWorld J} {st : MetaSt} {u : Url} (hu : m.source = some u) (hp : u.path ≠ [])
    (hs : st.stored = false) (h : (metaBefore m st).err = none) :
    ∃ data, metaData m u st.obj.inv.id = .ok data ∧ (storeMeta m st.obj data).err = none ∧
      (metaBefore m st).st = ⟨(storeMeta m st.obj data).obj, true, mset st.info st.obj.inv.head data⟩ := by
  revert h
  unfold metaBefore
  rw [hu]
  simp only [if_neg hp, hs, Bool.false_eq_true, if_false]
  cases hd : metaData m u st.obj.inv.id with
  | error e => intro h; cases h
  | ok data =>
    simp only
    cases ho : storeMeta m st.obj data with
    | mk o e =>
      cases e with
      | some e => intro h; cases h
      | none => intro _; exact ⟨data, rfl, by rw [ho], by rw [ho]⟩

theorem metaGet_first {J : Type} {m : MetaFileWorld J} {info : AMap Str Bytes} {inv : Inv} {fs : FS} {v : Str} {t : List Str}
    {b : Bytes} {j : J} (hv : (getVersionStrings inv).reverse = v :: t)
    (hb : mget info v = some b ∨ (mget info v = none ∧ readMeta m.exts m.folder inv fs v m.cfg = .ok b))
    (hj : m.asMap b = some j) : metaGet m info inv fs = .ok (some j) := by
  have : findMeta m info inv fs (v :: t) none = .ok (some b) := by
    rw [findMeta]
    rcases hb with h | ⟨h1, h2⟩
    · rw [h]
    · rw [h1, h2]
  unfold metaGet
  rw [hv, this, res_bind_ok]
  simp only [hj]

/-- **C102** with the settings of `MetaFindable`: metadata that is a JSON object is reported by every process. -/
theorem C102_reported_partial {J : Type} {m : MetaFileWorld J} {subs : List SubPathExt} {st : MetaSt} {n : Nat} {u : Url}
    {data : Bytes} (fs : FS) (hx : m.exts = subs.map SubPathExt.toPathExt) (hcl : ∀ e ∈ subs, AreasClean e)
    (hmn : CleanRel m.cfg.metaName) (hsn : m.cfg.storageType ≠ "area".toList → CleanRel m.cfg.storageName)
    (hwf : WF st.obj.inv n) (hn : 0 < n) (hcd : ValidComp st.obj.inv.contentDir) (hu : m.source = some u)
    (hp : u.path ≠ []) (hs : st.stored = false) (hd : metaData m u st.obj.inv.id = .ok data)
    (h : (metaBefore m st).err = none) (hf : MetaFindable subs m.cfg.store) (hj : (m.asMap data).isSome) :
    Reports m [] (metaBefore m st).st.obj.inv (applyOps fs (metaBefore m st).st.obj.trace) data := by
  obtain ⟨d, hd', hst, he⟩ := metaBefore_ok hu hp hs h
  rw [hd] at hd'; cases hd'
  obtain ⟨p, k1, k2, k3⟩ := storeMeta_spec hst
  obtain ⟨j, hj⟩ := Option.isSome_iff_exists.1 hj
  rw [he]
  obtain ⟨t, ht⟩ := versions_newest (k3.gapFree hwf.1) hn
  refine ⟨j, hj, metaGet_first ht (Or.inr ⟨rfl, ?_⟩) hj⟩
  rw [hx] at k1 ⊢
  unfold readMeta
  rw [k3.head, metaTarget_congr k3.cdir, metaTarget_found (wf_head_valid hwf hn) hcd hmn hsn (fun _ => hcl) hf k1,
    res_bind_ok, k2, applyOps_append, mget_writeFile]

/-- **C102**, the process that stored it reports it from memory, whatever the settings. -/
theorem C102_same_process_partial {J : Type} {m : MetaFileWorld J} {st : MetaSt} {n : Nat} {u : Url} {data : Bytes}
    (fs : FS) (hwf : WF st.obj.inv n) (hn : 0 < n) (hu : m.source = some u) (hp : u.path ≠ []) (hs : st.stored = false)
    (hd : metaData m u st.obj.inv.id = .ok data) (h : (metaBefore m st).err = none) (hj : (m.asMap data).isSome) :
    Reports m (metaBefore m st).st.info (metaBefore m st).st.obj.inv fs data := by
  obtain ⟨d, hd', hst, he⟩ := metaBefore_ok hu hp hs h
  rw [hd] at hd'; cases hd'
  obtain ⟨p, k1, k2, k3⟩ := storeMeta_spec hst
  obtain ⟨j, hj⟩ := Option.isSome_iff_exists.1 hj
  rw [he]
  obtain ⟨t, ht⟩ := versions_newest (k3.gapFree hwf.1) hn
  exact ⟨j, hj, metaGet_first ht (Or.inl (by rw [k3.head]; exact mget_mset_self _ _ _)) hj⟩

/-- **C102, later**: metadata inside the content of version `v` is reported after every later history of sessions with safe
names, completed or crashed, as long as no newer version has a file at its place. -/
theorem C102_later_partial {J : Type} {m : MetaFileWorld J} {w : World} {inv0 inv : Inv} {fs0 fs : FS} {n : Nat} {v p : Str}
    {b : Bytes} {j : J} {older newer : List Str} (h0 : Sound inv0 n) (hl : Later w (SafeNames w) inv0 fs0 inv fs)
    (ht : metaTarget m.exts m.folder inv0 v m.cfg = .ok p) (hp : Listed inv0 p) (hb : mget fs0 p = some b)
    (hj : m.asMap b = some j) (hv : getVersionStrings inv = older ++ v :: newer)
    (hnew : ∀ u ∈ newer, ∃ q, metaTarget m.exts m.folder inv u m.cfg = .ok q ∧ mget fs q = none) :
    metaGet m [] inv fs = .ok (some j) := by
  have hr : readMeta m.exts m.folder inv fs v m.cfg = .ok b := by
    unfold readMeta
    rw [metaTarget_congr (later_cdir hl), ht, res_bind_ok, (later_keeps h0 hl).1.files p hp, hb]
  have key : ∀ (l r : List Str) (e : Option GoErr), (∀ u ∈ l, ∃ q, metaTarget m.exts m.folder inv u m.cfg = .ok q ∧
      mget fs q = none) → findMeta m [] inv fs (l ++ v :: r) e = .ok (some b) := by
    intro l
    induction l with
    | nil =>
      intro r e _
      rw [List.nil_append, findMeta]
      simp only [mget, hr]
    | cons u l ih =>
      intro r e hl
      obtain ⟨q, hq, hn⟩ := hl u (by simp)
      have : readMeta m.exts m.folder inv fs u m.cfg = .error (.error "cannot open") := by
        unfold readMeta; rw [hq, res_bind_ok, hn]
      rw [List.cons_append, findMeta]
      simp only [mget, this]
      exact ih r _ (fun x hx => hl x (by simp [hx]))
  unfold metaGet
  rw [hv, List.reverse_append, List.reverse_cons, List.append_assoc, List.singleton_append,
    key _ _ _ (fun u hu => hnew u (List.mem_reverse.1 hu)), res_bind_ok]
  simp only [hj]

/-! ### Settings and metadata that fail -/

/-- **C102 fails** for every storage type spelled with an upper-case letter: other processes get an error. -/
theorem C102_full_fails_case {J : Type} {m : MetaFileWorld J} {inv : Inv} {fs : FS}
    (hl : toLower m.cfg.storageType ≠ m.cfg.storageType) (hne : getVersionStrings inv ≠ []) :
    ∃ e, metaGet m [] inv fs = .error e := by
  have h1 : m.cfg.storageType ≠ "area".toList := by intro h; rw [h] at hl; exact hl (by decide)
  have h2 : m.cfg.storageType ≠ "path".toList := by intro h; rw [h] at hl; exact hl (by decide)
  have h3 : m.cfg.storageType ≠ "extension".toList := by intro h; rw [h] at hl; exact hl (by decide)
  have hr : ∀ v, readMeta m.exts m.folder inv fs v m.cfg = .error (.error "unsupported storage type") := by
    intro v
    unfold readMeta metaTarget
    rw [if_neg h1, if_neg h2, if_neg h3]
    rfl
  have key : ∀ (l : List Str) (e : GoErr), ∃ e', findMeta m [] inv fs l (some e) = .error e' := by
    intro l
    induction l with
    | nil => intro e; exact ⟨e, rfl⟩
    | cons v l ih =>
      intro e
      rw [findMeta]
      simp only [mget, hr]
      exact ih _
  unfold metaGet
  cases hg : (getVersionStrings inv).reverse with
  | nil => exact absurd (List.reverse_eq_nil_iff.1 hg) hne
  | cons v l =>
    obtain ⟨e', he⟩ := key l (.error "unsupported storage type")
    refine ⟨e', ?_⟩
    have : findMeta m [] inv fs (v :: l) none = .error e' := by
      rw [findMeta]
      simp only [mget, hr]
      exact he
    rw [this]
    rfl

/-- **C102 fails** for metadata that is valid but no JSON object: it is stored, and `GetMetadata` fails. -/
theorem C102_full_fails_object {J : Type} {m : MetaFileWorld J} {st : MetaSt} {n : Nat} {u : Url} {data : Bytes}
    (fs : FS) (hwf : WF st.obj.inv n) (hn : 0 < n) (hu : m.source = some u) (hp : u.path ≠ []) (hs : st.stored = false)
    (hd : metaData m u st.obj.inv.id = .ok data) (h : (metaBefore m st).err = none) (hj : m.asMap data = none) :
    metaGet m (metaBefore m st).st.info (metaBefore m st).st.obj.inv fs = .error (.error "cannot unmarshal") := by
  obtain ⟨d, hd', hst, he⟩ := metaBefore_ok hu hp hs h
  rw [hd] at hd'; cases hd'
  obtain ⟨p, k1, k2, k3⟩ := storeMeta_spec hst
  rw [he]
  obtain ⟨t, ht⟩ := versions_newest (k3.gapFree hwf.1) hn
  have hg : mget (mset st.info st.obj.inv.head data) (storeMeta m st.obj data).obj.inv.head = some data := by
    rw [k3.head]; exact mget_mset_self _ _ _
  unfold metaGet
  rw [ht, findMeta, hg]
  simp only [res_bind_ok, hj]

/-! ### Examples -/

/-- JSON documents are numbers; only small ones are valid, the number 0 is no object -/
def exMetaFile (typ : Str) (src : Option Url) : MetaFileWorld Nat where
  w := exWorld
  exts := [exSub.toPathExt]
  folder := "NNNN-metafile".toList
  cfg := ⟨typ, "metadata".toList, "info.json".toList⟩
  source := src
  openFile := fun f => if f = "/meta/o.json".toList then some [7] else if f = "/meta/p.json".toList then some [8]
    else if f = "/meta/bad.json".toList then some [200] else if f = "/meta/arr.json".toList then some [0] else none
  httpGet := fun _ => none
  decode := fun _ b => b.head?.map UInt8.toNat
  valid := fun j => decide (j < 100)
  marshal := fun j => some [j.toUInt8]
  asMap := fun b => if b.head? = some 0 then none else b.head?.map UInt8.toNat

def exUrl (p : String) : Url := ⟨"file".toList, p.toList, ("file://" ++ p).toList⟩

def exMetaSt : MetaSt := ⟨exMetaObj, false, []⟩

theorem exMeta_cleanName : CleanRel "info.json".toList :=
  ⟨["info.json".toList], by simp, by
    intro x hx; rw [List.mem_singleton.1 hx]; exact ⟨by decide, by decide, by decide, by decide⟩, rfl⟩

theorem exMeta_cleanStore : CleanRel "metadata".toList :=
  ⟨["metadata".toList], by simp, by
    intro x hx; rw [List.mem_singleton.1 hx]; exact ⟨by decide, by decide, by decide, by decide⟩, rfl⟩

/-- the file of the object `o`, in the area `metadata` -/
example : Reports (exMetaFile "area".toList (some (exUrl "/meta/o.json"))) []
    (metaBefore (exMetaFile "area".toList (some (exUrl "/meta/o.json"))) exMetaSt).st.obj.inv
    (applyOps [] (metaBefore (exMetaFile "area".toList (some (exUrl "/meta/o.json"))) exMetaSt).st.obj.trace) [7] :=
  C102_reported_partial (subs := [exSub]) (n := 2) (u := exUrl "/meta/o.json") [] rfl (by simpa using exSub_clean)
    exMeta_cleanName (fun h => absurd rfl h) exMetaObj_wf (by decide) exInv_contentDir rfl (by decide) rfl (by decide)
    (by decide) (Or.inr (Or.inr ⟨exSub, rfl, Or.inl ⟨rfl, exSub_clean, by decide, by decide⟩⟩)) (by decide)

example : (metaBefore (exMetaFile "area".toList (some (exUrl "/meta/o.json"))) exMetaSt).st.obj.trace =
    writeFile "v2/content/sys/meta/info.json".toList [7] := by decide

/-- C102 is violated, with the storage type `path` and the content-subpath extension. -/
theorem C102_full_fails : ¬ C102_full := by
  intro hf
  obtain ⟨j, _, h⟩ := hf Nat (exMetaFile "path".toList (some (exUrl "/meta/o.json"))) [exSub] exMetaSt 2
    (exUrl "/meta/o.json") [7] [] rfl (by simpa using exSub_clean) exMeta_cleanName exMeta_cleanStore exMetaObj_wf
    (by decide) exInv_contentDir rfl (by decide) rfl (by decide) (by decide)
  have : metaGet (exMetaFile "path".toList (some (exUrl "/meta/o.json"))) []
      (metaBefore (exMetaFile "path".toList (some (exUrl "/meta/o.json"))) exMetaSt).st.obj.inv
      (applyOps [] (metaBefore (exMetaFile "path".toList (some (exUrl "/meta/o.json"))) exMetaSt).st.obj.trace) =
      .error (.error "cannot open") := by decide
  rw [this] at h
  cases h

/-- the array is stored, but not reported -/
example : metaGet (exMetaFile "area".toList (some (exUrl "/meta/arr.json")))
    (metaBefore (exMetaFile "area".toList (some (exUrl "/meta/arr.json"))) exMetaSt).st.info
    (metaBefore (exMetaFile "area".toList (some (exUrl "/meta/arr.json"))) exMetaSt).st.obj.inv [] =
    .error (.error "cannot unmarshal") :=
  C102_full_fails_object (n := 2) (u := exUrl "/meta/arr.json") (data := [0]) [] exMetaObj_wf (by decide) rfl (by decide)
    rfl (by decide) (by decide) (by decide)

/-! ## C103 -/

/-- **C103, full statement** (false): an update that creates the first version needs metadata; later ones do not. -/
def C103_full : Prop :=
  ∀ (J : Type) (m : MetaFileWorld J) (st : MetaSt), st.stored = false →
    ((getVersionStrings st.obj.inv).length < 2 → (metaBefore m st).err = none →
      (mget (metaBefore m st).st.info st.obj.inv.head).isSome) ∧
    (m.source = none → 2 ≤ (getVersionStrings st.obj.inv).length → (metaBefore m st).err = none)

/-- **C103, exact**: an update without error stores metadata iff the source has a path. -/
theorem C103_stored_iff_partial {J : Type} {m : MetaFileWorld J} {st : MetaSt} (hs : st.stored = false)
    (hi : mget st.info st.obj.inv.head = none) (h : (metaBefore m st).err = none) :
    (mget (metaBefore m st).st.info st.obj.inv.head).isSome ↔ ∃ u, m.source = some u ∧ u.path ≠ [] := by
  constructor
  · intro hsome
    cases hsrc : m.source with
    | none => unfold metaBefore at h; rw [hsrc] at h; cases h
    | some u =>
      refine ⟨u, rfl, fun hp => ?_⟩
      unfold metaBefore at hsome
      rw [hsrc] at hsome
      simp only [hp, if_true, hi] at hsome
      cases hsome
  · rintro ⟨u, hu, hp⟩
    obtain ⟨d, _, _, he⟩ := metaBefore_ok hu hp hs h
    rw [he]
    simp only [mget_mset_self]
    rfl

/-- **C103 fails** whatever the object: without the parameter the update panics, with the empty one (which the commands
always pass) it goes on without metadata. -/
theorem C103_full_fails_any {J : Type} (m : MetaFileWorld J) (st : MetaSt) :
    (m.source = none → (metaBefore m st).err = some (.panic "nil dereference: metadataSource")) ∧
    (∀ u, m.source = some u → u.path = [] → metaBefore m st = ⟨st, none⟩) := by
  constructor
  · intro h; unfold metaBefore; rw [h]
  · intro u h hp; unfold metaBefore; rw [h]; simp only [hp, if_true]

/-- an object with its first version open -/
def exFirst : Inv := { exInv with head := "v1".toList, versions := exInv.versions.take 1, writeable := true }

theorem C103_full_fails : ¬ C103_full := by
  intro hf
  have h := (hf Nat (exMetaFile "area".toList (some ⟨[], [], []⟩)) ⟨⟨exFirst, [], false, []⟩, false, []⟩ rfl).1
    (by decide) (by decide)
  exact absurd h (by decide)

theorem C103_full_fails_panic : ¬ C103_full := by
  intro hf
  have h := (hf Nat (exMetaFile "area".toList none) exMetaSt rfl).2 rfl (by decide)
  exact absurd h (by decide)

/-! ## C104 -/

theorem objAddReader_trace {w : World} {o : Obj} {files : List Str} {area : Str} {data : Bytes} :
    ∃ t, (objAddReader w o files area data).obj.trace = o.trace ++ t ∧ ∀ p b, FsOp.append p b ∈ t → b = data := by
  have nil : ∃ t, o.trace = o.trace ++ t ∧ ∀ p b, FsOp.append p b ∈ t → b = data :=
    ⟨[], (List.append_nil _).symm, by intro p b h; cases h⟩
  unfold objAddReader
  split
  · exact nil
  · split
    · exact nil
    · split
      · exact nil
      · rename_i names mp hb
        unfold addReader
        simp only
        cases hc : checksums w (digestAlgs o.inv) data with
        | none =>
          refine ⟨[.create mp], rfl, ?_⟩
          intro p b h
          cases List.mem_singleton.1 h
        | some cs =>
          refine ⟨writeFile mp data, ?_, ?_⟩
          · simp only [withInv]
            cases addFile o.inv names mp cs <;> rfl
          · intro p b h
            rcases List.mem_cons.1 h with h | h
            · cases h
            · cases List.mem_singleton.1 h; rfl

/-- **C104.** Whatever an update writes as metadata, with or without error, is a document accepted by the schema. -/
theorem C104_only_valid {J : Type} (m : MetaFileWorld J) (st : MetaSt) :
    ∃ t, (metaBefore m st).st.obj.trace = st.obj.trace ++ t ∧
      ∀ p b, FsOp.append p b ∈ t → ∃ j, m.valid j = true ∧ m.marshal j = some b := by
  have nil : ∀ o : Obj, o = st.obj → ∃ t, o.trace = st.obj.trace ++ t ∧
      ∀ p b, FsOp.append p b ∈ t → ∃ j, m.valid j = true ∧ m.marshal j = some b := by
    rintro o rfl
    exact ⟨[], (List.append_nil _).symm, by intro p b h; cases h⟩
  unfold metaBefore
  cases m.source with
  | none => exact nil _ rfl
  | some u =>
    simp only
    split
    · exact nil _ rfl
    · split
      · exact nil _ rfl
      · cases hd : metaData m u st.obj.inv.id with
        | error e => exact nil _ rfl
        | ok data =>
          have hv : ∃ j, m.valid j = true ∧ m.marshal j = some data := by
            unfold metaData at hd
            split at hd
            · cases hd
            · split at hd
              · cases hd
              · split at hd
                · split at hd
                  · cases hd
                  · split at hd
                    · rename_i j _ hj
                      split at hd
                      · cases hd
                      · rename_i d hm
                        cases hd
                        exact ⟨j, hj, hm⟩
                    · cases hd
                · cases hd
          have htr : ∃ t, (storeMeta m st.obj data).obj.trace = st.obj.trace ++ t ∧
              ∀ p b, FsOp.append p b ∈ t → b = data := by
            have nil' : ∃ t, st.obj.trace = st.obj.trace ++ t ∧ ∀ p b, FsOp.append p b ∈ t → b = data :=
              ⟨[], (List.append_nil _).symm, by intro p b h; cases h⟩
            unfold storeMeta
            split
            · exact objAddReader_trace
            · split
              · split
                · exact nil'
                · exact objAddReader_trace
              · split
                · refine ⟨_, rfl, ?_⟩
                  intro p b h
                  rcases List.mem_cons.1 h with h | h
                  · cases h
                  · cases List.mem_singleton.1 h; rfl
                · exact nil'
          obtain ⟨t, ht, hb⟩ := htr
          cases ho : storeMeta m st.obj data with
          | mk o e =>
            rw [ho] at ht
            have hfin : ∃ t, o.trace = st.obj.trace ++ t ∧
                ∀ p b, FsOp.append p b ∈ t → ∃ j, m.valid j = true ∧ m.marshal j = some b :=
              ⟨t, ht, fun p b h => by rw [hb p b h]; exact hv⟩
            simp only [ho]
            cases e <;> exact hfin

/-- **C104.** An update with a document the schema refuses fails, and leaves the object as it is. -/
theorem C104_invalid_refused {J : Type} {m : MetaFileWorld J} {st : MetaSt} {u : Url} (hu : m.source = some u)
    (hp : u.path ≠ []) (hs : st.stored = false) {f : Str} {r : Str → Option Bytes} {b : Bytes} {j : J}
    (hsrc : metaSource m u st.obj.inv.id = some (f, r)) (hb : r f = some b)
    (hj : m.decode (toLower (fileExt f)) b = some j) (hv : m.valid j = false) :
    (metaBefore m st).err ≠ none ∧ (metaBefore m st).st.obj = st.obj := by
  have hd : ∃ e, metaData m u st.obj.inv.id = .error e := by
    unfold metaData
    rw [hsrc]
    simp only [hb]
    split
    · simp only [hj, hv, Bool.false_eq_true, if_false]
      exact ⟨_, rfl⟩
    · exact ⟨_, rfl⟩
  obtain ⟨e, he⟩ := hd
  unfold metaBefore
  rw [hu]
  simp only [if_neg hp, hs, Bool.false_eq_true, if_false, he]
  exact ⟨by simp, trivial⟩

/-- **C104.** Metadata is stored once: in the versions that extensions add to the same update nothing more happens. -/
theorem C104_once {J : Type} {m : MetaFileWorld J} {st : MetaSt} {u : Url} (hu : m.source = some u) (hp : u.path ≠ [])
    (later : MetaSt) (h : later.stored = (metaBefore m st).st.stored) : metaBefore m later = ⟨later, none⟩ := by
  have h1 : (metaBefore m st).st.stored = true := by
    unfold metaBefore
    rw [hu]
    simp only [if_neg hp]
    cases hs : st.stored with
    | true => simp only [if_true, hs]
    | false =>
      simp only [Bool.false_eq_true, if_false]
      cases metaData m u st.obj.inv.id with
      | error e => rfl
      | ok data =>
        simp only
        cases storeMeta m st.obj data with
        | mk o e => cases e <;> rfl
  unfold metaBefore
  rw [hu]
  simp only [if_neg hp, h, h1, if_true]

example : (metaBefore (exMetaFile "area".toList (some (exUrl "/meta/bad.json"))) exMetaSt).st.obj.trace = [] ∧
    (metaBefore (exMetaFile "area".toList (some (exUrl "/meta/bad.json"))) exMetaSt).err =
      some (.error "cannot validate info file") := by decide

example : (metaBefore (exMetaFile "area".toList (some (exUrl "/meta/bad.json"))) exMetaSt).st.obj = exMetaObj :=
  (C104_invalid_refused (u := exUrl "/meta/bad.json") (f := "/meta/bad.json".toList) (b := [200]) (j := 200) rfl (by decide)
    rfl rfl (by decide) (by decide) (by decide)).2

/-! ## C105 -/

/-- how often the identifier is put into the name -/
def countId : Str → Nat
  | '$' :: 'I' :: 'D' :: r => countId r + 1
  | _ :: r => countId r
  | [] => 0

theorem replaceId_length (id s : Str) : (replaceId id s).length + 3 * countId s = s.length + countId s * id.length := by
  induction s using replaceId.induct with
  | case1 r ih => rw [replaceId, countId]; simp only [List.length_append, List.length_cons, Nat.succ_mul]; omega
  | case2 c r h ih =>
    rw [replaceId, countId]
    · simp only [List.length_cons]; omega
    · exact h
    · exact h
  | case3 => simp [replaceId, countId]

theorem countId_pos {a b : Str} : 0 < countId (a ++ ("$ID".toList ++ b)) := by
  induction a with
  | nil => exact Nat.succ_pos _
  | cons c a ih =>
    by_cases h : ∃ r, c :: (a ++ ("$ID".toList ++ b)) = '$' :: 'I' :: 'D' :: r
    · obtain ⟨r, hr⟩ := h
      rw [List.cons_append, hr]
      exact Nat.succ_pos _
    · rw [List.cons_append, countId]
      · exact ih
      · intro r h1 h2
        exact h ⟨r, by rw [h1, h2]⟩

theorem replaceId_inj {s a b : Str} (hc : 0 < countId s) (h : replaceId a s = replaceId b s) : a = b := by
  have hlen : a.length = b.length := by
    have h1 := replaceId_length a s
    have h2 := replaceId_length b s
    rw [h] at h1
    have : countId s * a.length = countId s * b.length := by omega
    exact Nat.eq_of_mul_eq_mul_left hc this
  revert hc h
  induction s using replaceId.induct with
  | case1 r ih =>
    intro _ h
    rw [replaceId, replaceId] at h
    exact (List.append_inj h hlen).1
  | case2 c r hr ih =>
    intro hc h
    rw [replaceId, replaceId] at h
    · rw [countId] at hc
      · exact ih hc (List.cons.inj h).2
      · exact hr
    all_goals exact hr
  | case3 => intro hc; exact absurd hc (by decide)

/-- The file (or address) the metadata of object `id` is read from. -/
def MetaFrom {J : Type} (m : MetaFileWorld J) (u : Url) (id f : Str) : Prop := ∃ r, metaSource m u id = some (f, r)

/-- **C105, full statement** (false): if the source contains `$ID`, different objects get their metadata from different
files, and the second object updated by a process gets its own metadata. -/
def C105_full : Prop :=
  ∀ (J : Type) (m : MetaFileWorld J) (u : Url) (id id2 f f2 : Str), m.source = some u →
    (∃ a b, u.path = a ++ ("$ID".toList ++ b)) → (∃ a b, u.str = a ++ ("$ID".toList ++ b)) → id ≠ id2 →
    MetaFrom m u id f → MetaFrom m u id2 f2 → f ≠ f2

/-- **C105, full statement for a process updating two objects with one extension manager** (false) -/
def C105_full_shared : Prop :=
  ∀ (J : Type) (m : MetaFileWorld J) (u : Url) (st : MetaSt) (o2 : Obj), m.source = some u → u.path ≠ [] →
    st.stored = false → (metaBefore m st).err = none → o2.inv.id ≠ st.obj.inv.id →
    (metaBefore m ⟨o2, (metaBefore m st).st.stored, (metaBefore m st).st.info⟩).err = none →
    ∃ data, metaData m u o2.inv.id = .ok data ∧
      mget (metaBefore m ⟨o2, (metaBefore m st).st.stored, (metaBefore m st).st.info⟩).st.info o2.inv.head = some data

/-- **C105** for addresses, and for file names with something before the identifier that is neither `/` nor `$`. -/
theorem C105_own_file_partial {J : Type} {m : MetaFileWorld J} {u : Url} {id id2 f f2 : Str}
    (hstr : ∃ a b, u.str = a ++ ("$ID".toList ++ b))
    (hpath : ∃ sl c a b, u.path = sl ++ (c :: (a ++ ("$ID".toList ++ b))) ∧ (∀ x ∈ sl, x = '/') ∧ c ≠ '/' ∧ c ≠ '$')
    (hne : id ≠ id2) (h1 : MetaFrom m u id f) (h2 : MetaFrom m u id2 f2) : f ≠ f2 := by
  rintro rfl
  obtain ⟨sl, c, a, b, hp, hsl, hc, hd⟩ := hpath
  have hrep : ∀ i : Str, replaceId i u.path = sl ++ (c :: replaceId i (a ++ ("$ID".toList ++ b))) := by
    intro i
    rw [hp]
    clear hp
    induction sl with
    | nil =>
      rw [List.nil_append, List.nil_append, replaceId]
      intro r h; exact absurd h hd
    | cons x sl ih =>
      have hx := hsl x (by simp)
      rw [List.cons_append, replaceId, ih (fun y hy => hsl y (by simp [hy])), List.cons_append]
      intro r h
      rw [hx] at h
      exact absurd h (by decide)
  have htrim : ∀ i : Str, trimLeft (replaceId i u.path) "/".toList = c :: replaceId i (a ++ ("$ID".toList ++ b)) := by
    intro i
    rw [hrep i]
    clear hrep hp
    induction sl with
    | nil =>
      rw [List.nil_append]
      unfold trimLeft
      rw [List.dropWhile_cons_of_neg]
      simpa using hc
    | cons x sl ih =>
      have hx := hsl x (by simp)
      unfold trimLeft
      rw [List.cons_append, List.dropWhile_cons_of_pos]
      · exact ih (fun y hy => hsl y (by simp [hy]))
      · rw [hx]; decide
  have htrim2 : ∀ t : Str, trimLeft ('/' :: c :: t) "/".toList = c :: t := by
    intro t
    unfold trimLeft
    rw [List.dropWhile_cons_of_pos (by decide), List.dropWhile_cons_of_neg]
    simpa using hc
  have hpos := countId_pos (a := a) (b := b)
  obtain ⟨r1, h1⟩ := h1
  obtain ⟨r2, h2⟩ := h2
  unfold metaSource at h1 h2
  simp only [htrim, htrim2] at h1 h2
  split at h1
  · rename_i hs
    rw [if_pos hs] at h2
    obtain ⟨a', b', hab⟩ := hstr
    have e1 := (Prod.mk.inj (Option.some.inj h1)).1
    have e2 := (Prod.mk.inj (Option.some.inj h2)).1
    exact hne (replaceId_inj (s := u.str) (by rw [hab]; exact countId_pos) (e1.trans e2.symm))
  · rename_i hs
    rw [if_neg hs] at h2
    have fin : c :: replaceId id (a ++ ("$ID".toList ++ b)) = c :: replaceId id2 (a ++ ("$ID".toList ++ b)) → False :=
      fun h => hne (replaceId_inj hpos (List.cons.inj h).2)
    split at h1
    · rename_i hs2
      rw [if_pos hs2] at h2
      have e1 := (Prod.mk.inj (Option.some.inj h1)).1
      have e2 := (Prod.mk.inj (Option.some.inj h2)).1
      have e := e1.trans e2.symm
      split at e <;> split at e
      · exact fin e
      · exact hc (List.cons.inj e).1
      · exact hc (List.cons.inj e).1.symm
      · exact fin (List.cons.inj e).2
    · rename_i hs2
      rw [if_neg hs2] at h2
      split at h1
      · rename_i hs3
        rw [if_pos hs3] at h2
        have e1 := (Prod.mk.inj (Option.some.inj h1)).1
        have e2 := (Prod.mk.inj (Option.some.inj h2)).1
        exact fin (List.cons.inj (e1.trans e2.symm)).2
      · cases h1

/-- **C105 fails** if the file name begins with the identifier: a slash before it is lost. -/
theorem C105_full_fails : ¬ C105_full := by
  intro hf
  exact hf Nat (exMetaFile "area".toList (some (exUrl "/$ID.json"))) (exUrl "/$ID.json") "a".toList "/a".toList
    "/a.json".toList "/a.json".toList rfl ⟨"/".toList, ".json".toList, by decide⟩
    ⟨"file:///".toList, ".json".toList, by decide⟩ (by decide) ⟨_, rfl⟩ ⟨_, rfl⟩ rfl

/-- a second object -/
def exObj2 : Obj := ⟨{ exInv with id := "p".toList, writeable := true }, [], false, []⟩

/-- **C105 fails** with one extension manager for two objects: the metadata of the first is reported for the second. -/
theorem C105_full_fails_shared : ¬ C105_full_shared := by
  intro hf
  obtain ⟨data, h1, h2⟩ := hf Nat (exMetaFile "area".toList (some (exUrl "/meta/$ID.json"))) (exUrl "/meta/$ID.json")
    ⟨{ exMetaObj with inv := { exMetaObj.inv with id := "o".toList } }, false, []⟩ exObj2 rfl (by decide) rfl (by decide)
    (by decide) (by decide)
  have e1 : metaData (exMetaFile "area".toList (some (exUrl "/meta/$ID.json"))) (exUrl "/meta/$ID.json")
    exObj2.inv.id = .ok [8] := by decide
  rw [e1] at h1
  cases h1
  exact absurd h2 (by decide)

example : MetaFrom (exMetaFile "area".toList (some (exUrl "/meta/$ID.json"))) (exUrl "/meta/$ID.json") "o".toList
    "/meta/o.json".toList := ⟨_, rfl⟩

example {id id2 : Str} (h : id ≠ id2) {f f2 : Str}
    (h1 : MetaFrom (exMetaFile "area".toList none) (exUrl "/meta/$ID.json") id f)
    (h2 : MetaFrom (exMetaFile "area".toList none) (exUrl "/meta/$ID.json") id2 f2) : f ≠ f2 :=
  C105_own_file_partial ⟨"file:///meta/".toList, ".json".toList, by decide⟩
    ⟨"/".toList, 'm', "eta/".toList, ".json".toList, by decide, by decide, by decide, by decide⟩ h h1 h2

/-- the metadata of version 2 after a session that added version 3 without metadata -/
example : ∃ inv fs, inv.head = "v3".toList ∧
    metaGet { exMetaFile "area".toList none with exts := [], cfg := ⟨"area".toList, [], "indexer_v2.jsonl.gz".toList⟩ } []
      inv fs = .ok (some 7) :=
  ⟨stampInv exWorld4.time (session exWorld4 exMetaInv (exTwice "c".toList "e".toList)).obj.inv,
    applyOps [("v2/content/indexer_v2.jsonl.gz".toList, [7])]
      (session exWorld4 exMetaInv (exTwice "c".toList "e".toList)).obj.trace, by decide,
    C102_later_partial (w := exWorld4) (v := "v2".toList) (p := "v2/content/indexer_v2.jsonl.gz".toList) (b := [7])
      (older := ["v1".toList]) (newer := ["v3".toList]) exMetaInv_sound
      (.completed (exTwice "c".toList "e".toList) _ .now (exTwice_safe ⟨0, by decide⟩ ⟨0, by decide⟩)
        (by decide) (by decide) (sameInv_refl _))
      (by decide) ⟨"d2".toList, ["v2/content/indexer_v2.jsonl.gz".toList], by decide, by decide⟩ (by decide) (by decide)
      (by decide) (by
        intro u hu
        rw [List.mem_singleton.1 hu]
        exact ⟨"v3/content/indexer_v2.jsonl.gz".toList, by decide, by decide⟩)⟩

end Gocfl
