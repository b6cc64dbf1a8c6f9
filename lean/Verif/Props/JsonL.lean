import Verif.Model.JsonL
import Verif.Props.ExtractHistory

/-!
# Metadata files of extensions are found again (C61)
-/

namespace Gocfl

/-- **C61, full statement** (false): after an extension stored metadata for the head version, reading the metadata of
that version with the same settings gives it back; objects with any number of content-subpath extensions. -/
def C61_full : Prop :=
  ∀ (w : World) (c : Compr) (subs : List SubPathExt) (folder : Str) (o : Obj) (n : Nat) (name : Str) (b d : Bytes)
    (cfg : MetaCfg) (fs : FS), c.Ok → WF o.inv n → 0 < n → ValidComp o.inv.contentDir → ValidComp name →
    (∀ e ∈ subs, AreasClean e) → c.unbr b = some d →
    (writeJsonL w c (subs.map SubPathExt.toPathExt) folder o name b cfg).err = none →
    let o' := (writeJsonL w c (subs.map SubPathExt.toPathExt) folder o name b cfg).obj
    readJsonL c (subs.map SubPathExt.toPathExt) folder o'.inv (applyOps fs o'.trace) name o.inv.head cfg = .ok d

/-- what a successful `AddReader` of one name does -/
theorem objAddReader_one {w : World} {o : Obj} {f area : Str} {data : Bytes}
    (h : (objAddReader w o [f] area data).err = none) :
    ∃ i, w.manifestPath f area = .ok i ∧
      (objAddReader w o [f] area data).obj.trace = o.trace ++ writeFile (buildManifestName o.inv i) data ∧
      HeadOnly o.inv (objAddReader w o [f] area data).obj.inv := by
  have hst := (objAddReader_step (w := w) (U := fun _ _ => True) (o := o) (files := [f]) (area := area) (data := data)
    trivial).headOnly
  revert h hst
  unfold objAddReader
  rw [if_neg (by simp)]
  split
  · intro h; cases h
  · cases hb : buildNames w o.inv [f] area with
    | error e => intro h; cases h
    | ok x =>
      obtain ⟨names, mp⟩ := x
      obtain ⟨_, i, hi, hmp⟩ := buildNames_ok hb
      simp only
      intro h hst
      refine ⟨i, hi, ?_, hst⟩
      revert h
      unfold addReader
      simp only
      cases hc : checksums w (digestAlgs o.inv) data with
      | none => intro h; cases h
      | some cs =>
        simp only [withInv]
        cases hf : addFile o.inv names mp cs with
        | error e => intro h; cases h
        | ok inv' => intro _; simp [Obj.write, hmp]

/-- what was stored is what is read -/
theorem decompr_compr {c : Compr} (hc : c.Ok) {compress : Str} {b d data : Bytes}
    (hb : c.unbr b = some d) (hd : comprData c compress b = some data) : decomprData c compress data = some d := by

  unfold comprData at hd
  unfold decomprData
  by_cases h1 : compress = "brotli".toList
  · simp only [h1, if_true] at hd ⊢
    cases hd; exact hb
  · rw [if_neg h1] at hd
    rw [if_neg h1]
    by_cases h2 : compress = "gzip".toList
    · simp only [h2, if_true] at hd ⊢
      rw [hb] at hd
      cases hd
      exact hc d
    · rw [if_neg h2] at hd ⊢
      rw [hb] at hd; cases hd; rfl

/-- the file written by a successful `WriteJsonL` -/
def WritesTo (exts : List PathExt) (folder : Str) (inv : Inv) (name ext : Str) (cfg : MetaCfg) (p : Str) : Prop :=
  (toLower cfg.storageType = "area".toList ∧ ∃ i,
    manifestChain exts (jsonlName name inv.head ext) cfg.storageName false = .ok i ∧ p = buildManifestName inv i) ∨
  (toLower cfg.storageType = "path".toList ∧ ∃ path i, areaChain exts "content".toList false = .ok path ∧
    manifestChain exts (path ++ '/' :: (cfg.storageName ++ '/' :: jsonlName name inv.head ext)) [] false = .ok i ∧
    p = buildManifestName inv i) ∨
  (toLower cfg.storageType = "extension".toList ∧
    p = extPath (folder ++ '/' :: jsonlExtName cfg.storageName name inv.head ext))

theorem writeJsonL_spec {w : World} {c : Compr} {exts : List PathExt} {folder : Str} {o : Obj} {name : Str} {b : Bytes}
    {cfg : MetaCfg} (h : (writeJsonL w c exts folder o name b cfg).err = none) :
    ∃ ext data p, comprExt cfg.compress = some ext ∧ comprData c cfg.compress b = some data ∧
      WritesTo exts folder o.inv name ext cfg p ∧
      (writeJsonL w c exts folder o name b cfg).obj.trace = o.trace ++ writeFile p data ∧
      HeadOnly o.inv (writeJsonL w c exts folder o name b cfg).obj.inv := by
  revert h
  unfold writeJsonL
  cases h1 : comprExt cfg.compress with
  | none => intro h; cases h
  | some ext =>
    simp only
    cases h2 : comprData c cfg.compress b with
    | none => intro h; cases h
    | some data =>
      simp only
      split
      · rename_i ht
        intro h
        obtain ⟨i, k1, k2, k3⟩ := objAddReader_one h
        exact ⟨ext, data, _, rfl, rfl, Or.inl ⟨ht, i, k1, rfl⟩, k2, k3⟩
      · split
        · rename_i ht
          cases h3 : areaChain exts "content".toList false with
          | error e => intro h; cases h
          | ok path =>
            simp only
            intro h
            obtain ⟨i, k1, k2, k3⟩ := objAddReader_one h
            exact ⟨ext, data, _, rfl, rfl, Or.inr (Or.inl ⟨ht, path, i, h3 ▸ rfl, k1, rfl⟩), k2, k3⟩
        · split
          · rename_i ht
            intro _
            exact ⟨ext, data, _, rfl, rfl, Or.inr (Or.inr ⟨ht, rfl⟩), rfl, HeadOnly.refl _⟩
          · intro h; cases h

theorem jsonlTarget_congr {exts : List PathExt} {folder : Str} {a b : Inv} (h : b.contentDirectory = a.contentDirectory)
    (name version ext : Str) (cfg : MetaCfg) :
    jsonlTarget exts folder b name version ext cfg = jsonlTarget exts folder a name version ext cfg := by
  have : ∀ s v, buildManifestNameVersion b s v = buildManifestNameVersion a s v := by
    intro s v; unfold buildManifestNameVersion Inv.contentDir; rw [h]
  unfold jsonlTarget
  simp only [this]

/-- **C61, exact**: a successful write goes to one file `p`; reading the metadata of that version with the same settings
afterwards opens a file that depends on the settings only: if it is `p` the data comes back, otherwise (or if the
settings do not name a file) the result is what it was before the write. -/
theorem C61_exact_partial {w : World} {c : Compr} (hc : c.Ok) {exts : List PathExt} {folder : Str} {o : Obj} {name : Str}
    {b d : Bytes} {cfg : MetaCfg} (hb : c.unbr b = some d)
    (h : (writeJsonL w c exts folder o name b cfg).err = none) (fs : FS) :
    ∃ ext p, comprExt cfg.compress = some ext ∧ WritesTo exts folder o.inv name ext cfg p ∧
      (jsonlTarget exts folder o.inv name o.inv.head ext cfg = .ok p →
        readJsonL c exts folder (writeJsonL w c exts folder o name b cfg).obj.inv
          (applyOps fs (writeJsonL w c exts folder o name b cfg).obj.trace) name o.inv.head cfg = .ok d) ∧
      (jsonlTarget exts folder o.inv name o.inv.head ext cfg ≠ .ok p →
        readJsonL c exts folder (writeJsonL w c exts folder o name b cfg).obj.inv
          (applyOps fs (writeJsonL w c exts folder o name b cfg).obj.trace) name o.inv.head cfg =
        readJsonL c exts folder o.inv (applyOps fs o.trace) name o.inv.head cfg) := by
  obtain ⟨ext, data, p, h1, h2, h3, h4, h5⟩ := writeJsonL_spec h
  refine ⟨ext, p, h1, h3, fun ht => ?_, fun ht => ?_⟩
  · unfold readJsonL
    rw [h1]
    simp only
    rw [jsonlTarget_congr h5.cdir, ht, res_bind_ok, h4, applyOps_append, mget_writeFile]
    simp only
    rw [decompr_compr hc hb h2]
  · unfold readJsonL
    rw [h1]
    simp only
    rw [jsonlTarget_congr h5.cdir]
    cases hq : jsonlTarget exts folder o.inv name o.inv.head ext cfg with
    | error e => rfl
    | ok q =>
      rw [hq] at ht
      rw [res_bind_ok, res_bind_ok, h4, applyOps_append, mget_writeFile_ne _ _ (fun hpq => ht (by rw [hpq]))]

/-- a leading slash of a name does not matter -/
theorem buildManifestNameVersion_slash {inv : Inv} {v : Str} (hv : ValidComp v) (hc : ValidComp inv.contentDir) (s : Str) :
    buildManifestNameVersion inv ('/' :: s) v = buildManifestNameVersion inv s v := by
  unfold buildManifestNameVersion
  have h1 : ∀ t, pathJoin [v, inv.contentDir, t] = pathClean (v ++ '/' :: (inv.contentDir ++ '/' :: t)) := by
    intro t
    cases hd : v with
    | nil => exact absurd hd hv.1
    | cons c h => rfl
  have h2 : ∀ t, pathClean (v ++ '/' :: (inv.contentDir ++ '/' :: t)) =
      match joinWith '/' (cleanGo false [inv.contentDir, v] (splitOn '/' t)) with
      | [] => ".".toList
      | r => r := by
    intro t
    rw [pathClean_rel (not_rooted_of_valid hv), splitOn_append, splitOn_append, splitOn_noSep hv.2.2.2,
      splitOn_noSep hc.2.2.2]
    rw [show [v] ++ ([inv.contentDir] ++ splitOn '/' t) = [v, inv.contentDir] ++ splitOn '/' t from rfl, cleanGo_append]
    · rfl
    · intro x hx
      simp only [List.mem_cons, List.not_mem_nil, or_false] at hx
      rcases hx with rfl | rfl
      · exact hv
      · exact hc
  rw [h1, h1, h2, h2]
  congr 2

theorem buildManifestNameVersion_clean {inv : Inv} {v s : Str} (hv : ValidComp v) (hc : ValidComp inv.contentDir)
    (hs : CleanRel s) : buildManifestNameVersion inv s v = v ++ '/' :: (inv.contentDir ++ '/' :: s) := by
  have hcl : CleanRel (v ++ '/' :: (inv.contentDir ++ '/' :: s)) :=
    CleanRel.join ⟨[v], by simp, by simpa using hv, rfl⟩ (CleanRel.join ⟨[inv.contentDir], by simp, (by intro x hx; rw [List.mem_singleton.1 hx]; exact hc), rfl⟩ hs)
  unfold buildManifestNameVersion
  have h1 : pathJoin [v, inv.contentDir, s] = pathClean (v ++ '/' :: (inv.contentDir ++ '/' :: s)) := by
    cases hd : v with
    | nil => exact absurd hd hv.1
    | cons c h => rfl
  rw [h1, hcl.clean, hcl.clean]

theorem comprExt_noSlash {x ext : Str} (h : comprExt x = some ext) : '/' ∉ ext := by
  unfold comprExt at h
  split at h
  · cases h; decide
  · split at h
    · cases h; decide
    · split at h
      · cases h; simp
      · cases h

theorem jsonlName_clean {name v ext : Str} (hn : '/' ∉ name) (hv : ValidComp v) (he : '/' ∉ ext) :
    CleanRel (jsonlName name v ext) := by
  have hu : '_' ∈ jsonlName name v ext := by simp [jsonlName]
  refine ⟨[jsonlName name v ext], by simp, ?_, rfl⟩
  intro x hx
  simp only [List.mem_singleton] at hx
  subst hx
  refine ⟨List.ne_nil_of_mem hu, fun h => ?_, fun h => ?_, ?_⟩
  · rw [h] at hu; revert hu; decide
  · rw [h] at hu; revert hu; decide
  · simp only [jsonlName, List.mem_append, List.mem_cons, not_or]
    exact ⟨hn, by decide, hv.2.2.2, by decide, he⟩

theorem chain_nil (p a : Str) : manifestChain [] p a false = .ok p := rfl

theorem chain_sub {e : SubPathExt} {p a q : Str} (h : manifestChain [e.toPathExt] p a false = .ok q) :
    ∃ x, e.build p a = .ok x ∧ q = if x = [] then p else x := by
  simp only [manifestChain, SubPathExt.toPathExt] at h
  cases hb : e.build p a with
  | error x =>
    rw [hb] at h
    cases x <;> simp [PathErr.toGo] at h
  | ok x =>
    rw [hb] at h
    simp only [Bool.false_eq_true, if_false] at h
    cases h
    exact ⟨x, rfl, rfl⟩

theorem areaChain_sub {e : SubPathExt} {a s : Str} (h : mget e.paths a = some s) :
    areaChain [e.toPathExt] a false = .ok s := by
  simp only [areaChain, SubPathExt.toPathExt, SubPathExt.areaPath, h]
  by_cases hs : s = []
  · simp [hs]
  · simp [hs]

/-- The settings with which metadata is found again: the storage type in lower case and `extension`; or no
content-subpath extension; or one, and a named area of it (not the default, not `full`); or the storage type `path`
if the default area is `full`. -/
def MetaFindable (subs : List SubPathExt) (cfg : MetaCfg) : Prop :=
  cfg.storageType = "extension".toList ∨
  (subs = [] ∧ (cfg.storageType = "area".toList ∨ cfg.storageType = "path".toList)) ∨
  ∃ e, subs = [e] ∧
    ((cfg.storageType = "area".toList ∧ AreasClean e ∧ cfg.storageName ≠ [] ∧ cfg.storageName ≠ "full".toList) ∨
     (cfg.storageType = "path".toList ∧ e.area = "full".toList))

theorem target_found {subs : List SubPathExt} {folder : Str} {inv : Inv} {name ext p : Str} {cfg : MetaCfg}
    (hv : ValidComp inv.head) (hc : ValidComp inv.contentDir) (hn : '/' ∉ name) (he : '/' ∉ ext)
    (hf : MetaFindable subs cfg) (hw : WritesTo (subs.map SubPathExt.toPathExt) folder inv name ext cfg p) :
    jsonlTarget (subs.map SubPathExt.toPathExt) folder inv name inv.head ext cfg = .ok p := by
  have l1 : toLower "area".toList = "area".toList := by decide
  have l2 : toLower "path".toList = "path".toList := by decide
  have l3 : toLower "extension".toList = "extension".toList := by decide
  have n12 : "area".toList ≠ "path".toList := by decide
  have n13 : "area".toList ≠ "extension".toList := by decide
  have n23 : "path".toList ≠ "extension".toList := by decide
  rcases hf with ht | ⟨rfl, ht | ht⟩ | ⟨e, rfl, ⟨ht, hcl, hs1, hs2⟩ | ⟨ht, hfull⟩⟩
  · rcases hw with ⟨h, _⟩ | ⟨h, _⟩ | ⟨_, rfl⟩
    · rw [ht, l3] at h; exact absurd h.symm n13
    · rw [ht, l3] at h; exact absurd h.symm n23
    · unfold jsonlTarget
      rw [ht, if_neg n13.symm, if_neg n23.symm, if_pos rfl]
  · rcases hw with ⟨_, i, h1, rfl⟩ | ⟨h, _⟩ | ⟨h, _⟩
    · cases h1
      unfold jsonlTarget
      rw [ht, if_pos rfl]
      simp only [List.map_nil, areaChain, Bool.false_eq_true, if_false, res_bind_ok, List.nil_append]
      rw [buildManifestNameVersion_slash hv hc]
      rfl
    · rw [ht, l1] at h; exact absurd h n12
    · rw [ht, l1] at h; exact absurd h n13
  · rcases hw with ⟨h, _⟩ | ⟨_, path, i, h0, h1, rfl⟩ | ⟨h, _⟩
    · rw [ht, l2] at h; exact absurd h.symm n12
    · cases h1
      unfold jsonlTarget
      rw [ht, if_neg n12.symm, if_pos rfl, h0]
      rfl
    · rw [ht, l2] at h; exact absurd h n23
  · rcases hw with ⟨_, i, h1, rfl⟩ | ⟨h, _⟩ | ⟨h, _⟩
    · obtain ⟨x, hb, rfl⟩ := chain_sub h1
      unfold SubPathExt.build at hb
      simp only [if_neg hs1, if_neg hs2] at hb
      cases hm : mget e.paths cfg.storageName with
      | none => rw [hm] at hb; cases hb
      | some s =>
        rw [hm] at hb
        cases hb
        have hj := jsonlName_clean (v := inv.head) hn hv he
        unfold jsonlTarget
        rw [ht, if_pos rfl]
        simp only [List.map_cons, List.map_nil, areaChain_sub hm, res_bind_ok]
        rcases hcl _ _ hm with rfl | hs
        · have : pathJoin [[], jsonlName name inv.head ext] = jsonlName name inv.head ext := by
            have h2 : ∀ x, x ≠ [] → pathJoin [[], x] = pathClean x := by
              intro x hx
              cases x with
              | nil => exact absurd rfl hx
              | cons c t => rfl
            rw [h2 _ hj.ne_nil, hj.clean]
          rw [this, if_neg hj.ne_nil, List.nil_append, buildManifestNameVersion_slash hv hc]
          rfl
        · rw [pathJoin_two hs hj, if_neg (hs.join hj).ne_nil]
          rfl
    · rw [ht, l1] at h; exact absurd h n12
    · rw [ht, l1] at h; exact absurd h n13
  · rcases hw with ⟨h, _⟩ | ⟨_, path, i, h0, h1, rfl⟩ | ⟨h, _⟩
    · rw [ht, l2] at h; exact absurd h.symm n12
    · obtain ⟨x, hb, rfl⟩ := chain_sub h1
      unfold SubPathExt.build at hb
      simp only [hfull, if_true] at hb
      cases hb
      unfold jsonlTarget
      rw [ht, if_neg n12.symm, if_pos rfl, h0, res_bind_ok, if_neg (by simp)]
      rfl
    · rw [ht, l2] at h; exact absurd h n23

theorem wf_head_valid {inv : Inv} {n : Nat} (h : WF inv n) (hn : 0 < n) : ValidComp inv.head := by
  rw [h.1.head_eq hn]; exact verName_valid _ _

/-- **C61** for the settings of `MetaFindable`: what was stored for the head version is read back. -/
theorem C61_found_again_partial {w : World} {c : Compr} (hc : c.Ok) {subs : List SubPathExt} {folder : Str} {o : Obj}
    {n : Nat} {name : Str} {b d : Bytes} {cfg : MetaCfg} (fs : FS) (hwf : WF o.inv n) (hn : 0 < n)
    (hcd : ValidComp o.inv.contentDir) (hname : '/' ∉ name) (hf : MetaFindable subs cfg) (hb : c.unbr b = some d)
    (h : (writeJsonL w c (subs.map SubPathExt.toPathExt) folder o name b cfg).err = none) :
    readJsonL c (subs.map SubPathExt.toPathExt) folder
      (writeJsonL w c (subs.map SubPathExt.toPathExt) folder o name b cfg).obj.inv
      (applyOps fs (writeJsonL w c (subs.map SubPathExt.toPathExt) folder o name b cfg).obj.trace)
      name o.inv.head cfg = .ok d := by
  obtain ⟨ext, p, h1, h2, h3, _⟩ := C61_exact_partial hc hb h fs
  exact h3 (target_found (wf_head_valid hwf hn) hcd hname (comprExt_noSlash h1) hf h2)

/-! ### Later versions -/

theorem cdir_inv {w : World} (cd : Str) : SessionInv w (fun _ => True) (fun o => o.inv.contentDirectory = cd) where
  call o c _ h := ((runCall_step (w := w) (U := fun _ _ => True) c (fun _ _ => trivial)).headOnly.cdir).trans h
  echo o h := ((echoIf_step (w := w) (U := fun _ _ => True) (o := o)).headOnly.cdir).trans h
  open_ o e i m u a t h hv := (newVersion_frame hv).1.trans h
  openErr o e h := h
  store o v r h := by rw [storeInventory_trace.1]; exact h
  ext o n d h := h

theorem later_cdir {w : World} {Safe : Session → Prop} {inv0 inv : Inv} {fs0 fs : FS} (hl : Later w Safe inv0 fs0 inv fs) :
    inv.contentDirectory = inv0.contentDirectory := by
  induction hl with
  | now => rfl
  | aborted s t' _ _ _ _ ih => exact ih
  | @completed j _ s i _ _ _ _ hs ih =>
    have h1 := (cdir_inv (w := w) j.contentDirectory).session (inv := j) (s := s) rfl (fun _ _ => trivial)
    rw [← hs.contentDirectory]
    exact Eq.trans h1 ih

/-- **C61, later**: metadata stored inside the content of a version is read back unchanged after every later history of
sessions with safe names, completed or crashed. -/
theorem C61_read_later_partial {w : World} {c : Compr} {exts : List PathExt} {folder : Str} {inv0 inv : Inv} {fs0 fs : FS}
    {n : Nat} {name v ext p : Str} {d : Bytes} {cfg : MetaCfg} (h0 : Sound inv0 n)
    (hl : Later w (SafeNames w) inv0 fs0 inv fs) (he : comprExt cfg.compress = some ext)
    (ht : jsonlTarget exts folder inv0 name v ext cfg = .ok p) (hp : Listed inv0 p)
    (hr : readJsonL c exts folder inv0 fs0 name v cfg = .ok d) :
    readJsonL c exts folder inv fs name v cfg = .ok d := by
  rw [← hr]
  unfold readJsonL
  rw [he]
  simp only
  rw [jsonlTarget_congr (later_cdir hl), ht, res_bind_ok, res_bind_ok, (later_keeps h0 hl).1.files p hp]

/-! ### The settings that fail -/

/-- **C61 fails** for every object with a content-subpath extension whose default area has a folder and the storage
type `path`: the folder of the content area is put before the name on writing, and the folder of the default area is
put before that once more; reading looks for the name with one folder only.  Whatever was there before is read. -/
theorem C61_full_fails_path {w : World} {c : Compr} (hc : c.Ok) {e : SubPathExt} {folder : Str} {o : Obj} {n : Nat}
    {name : Str} {b d : Bytes} {cfg : MetaCfg} {s cp : Str} (fs : FS) (hwf : WF o.inv n) (hn : 0 < n)
    (hcd : ValidComp o.inv.contentDir) (hname : '/' ∉ name) (hb : c.unbr b = some d)
    (ht : cfg.storageType = "path".toList) (hsn : CleanRel cfg.storageName)
    (hfull : e.area ≠ "full".toList) (hs : mget e.paths e.area = some s) (hscl : CleanRel s)
    (hcp : mget e.paths "content".toList = some cp) (hcpcl : CleanRel cp)
    (h : (writeJsonL w c [e.toPathExt] folder o name b cfg).err = none) :
    readJsonL c [e.toPathExt] folder (writeJsonL w c [e.toPathExt] folder o name b cfg).obj.inv
      (applyOps fs (writeJsonL w c [e.toPathExt] folder o name b cfg).obj.trace) name o.inv.head cfg =
    readJsonL c [e.toPathExt] folder o.inv (applyOps fs o.trace) name o.inv.head cfg := by
  obtain ⟨ext, p, h1, h2, _, h3⟩ := C61_exact_partial hc hb h fs
  refine h3 (fun hp => ?_)
  have hv := wf_head_valid hwf hn
  have hj := jsonlName_clean (v := o.inv.head) hname hv (comprExt_noSlash h1)
  have hq := hcpcl.join (hsn.join hj)
  have hl : toLower cfg.storageType = "path".toList := by rw [ht]; decide
  unfold jsonlTarget at hp
  rw [ht, if_neg (by decide), if_pos rfl, areaChain_sub hcp, res_bind_ok, buildManifestNameVersion_clean hv hcd hq] at hp
  rcases h2 with ⟨h, _⟩ | ⟨_, path, i, k0, k1, rfl⟩ | ⟨h, _⟩
  · rw [hl] at h; exact absurd h (by decide)
  · rw [areaChain_sub hcp] at k0
    cases k0
    obtain ⟨x, k2, rfl⟩ := chain_sub k1
    unfold SubPathExt.build at k2
    simp only [if_true, if_neg hfull, hs] at k2
    cases k2
    rw [pathJoin_two hscl hq, if_neg (hscl.join hq).ne_nil] at hp
    unfold buildManifestName at hp
    rw [buildManifestNameVersion_clean hv hcd (hscl.join hq)] at hp
    have := congrArg List.length (Except.ok.inj hp)
    have hs0 := List.length_pos_iff.2 hscl.ne_nil
    simp only [List.length_append, List.length_cons] at this
    omega
  · rw [hl] at h; exact absurd h (by decide)

/-- **C61 fails** for every storage type spelled with an upper-case letter: writing accepts it, reading refuses it. -/
theorem C61_full_fails_case {c : Compr} {exts : List PathExt} {folder : Str} {inv : Inv} {fs : FS} {name v : Str}
    {cfg : MetaCfg} (hl : toLower cfg.storageType ≠ cfg.storageType) :
    ∃ e, readJsonL c exts folder inv fs name v cfg = .error e := by
  unfold readJsonL
  cases comprExt cfg.compress with
  | none => exact ⟨_, rfl⟩
  | some ext =>
    simp only
    have h1 : cfg.storageType ≠ "area".toList := by intro h; rw [h] at hl; exact hl (by decide)
    have h2 : cfg.storageType ≠ "path".toList := by intro h; rw [h] at hl; exact hl (by decide)
    have h3 : cfg.storageType ≠ "extension".toList := by intro h; rw [h] at hl; exact hl (by decide)
    unfold jsonlTarget
    rw [if_neg h1, if_neg h2, if_neg h3]
    exact ⟨_, rfl⟩

/-! ### Examples -/

/-- stored data begins with a mark for its format -/
def exCompr : Compr := ⟨fun b => if b.head? = some 1 then some b.tail else none, fun b => 2 :: b,
  fun b => if b.head? = some 2 then some b.tail else none⟩

theorem exCompr_ok : exCompr.Ok := by intro b; simp [exCompr]

def exMetaObj : Obj := ⟨{ exInv with writeable := true }, [], false, []⟩

theorem exMetaObj_wf : WF exMetaObj.inv 2 := ⟨⟨exInv_gapFree.1, exInv_gapFree.2⟩, exInv_mapKeysOk⟩

/-- gzip compressed metadata in the area `metadata` -/
def exMetaCfg : MetaCfg := ⟨"gzip".toList, "area".toList, "metadata".toList⟩

theorem exSub_clean : AreasClean exSub := by
  intro a s h
  right
  have hm := mem_of_mget h
  simp only [exSub, List.mem_cons, List.not_mem_nil, or_false, Prod.mk.injEq] at hm
  rcases hm with ⟨_, rfl⟩ | ⟨_, rfl⟩
  · exact ⟨["data".toList], by simp, by
      intro c hc; simp only [List.mem_singleton] at hc; subst hc
      exact ⟨by decide, by decide, by decide, by decide⟩, rfl⟩
  · exact ⟨["sys".toList, "meta".toList], by simp, by
      intro c hc
      have : ∀ c ∈ ["sys".toList, "meta".toList],
        c ≠ [] ∧ c ≠ ".".toList ∧ c ≠ "..".toList ∧ '/' ∉ c := by decide
      exact this c hc, by decide⟩

example : (writeJsonL exWorld exCompr [exSub.toPathExt] [] exMetaObj "indexer".toList [1, 7] exMetaCfg).obj.trace =
    writeFile "v2/content/sys/meta/indexer_v2.jsonl.gz".toList [2, 7] := by decide

example : readJsonL exCompr [exSub.toPathExt] []
    (writeJsonL exWorld exCompr [exSub.toPathExt] [] exMetaObj "indexer".toList [1, 7] exMetaCfg).obj.inv
    (applyOps [] (writeJsonL exWorld exCompr [exSub.toPathExt] [] exMetaObj "indexer".toList [1, 7] exMetaCfg).obj.trace)
    "indexer".toList "v2".toList exMetaCfg = .ok [7] :=
  C61_found_again_partial (subs := [exSub]) exCompr_ok [] exMetaObj_wf (by decide) exInv_contentDir (by decide)
    (Or.inr (Or.inr ⟨exSub, rfl, Or.inl ⟨rfl, exSub_clean, by decide, by decide⟩⟩)) (by decide) (by decide)

/-- an object whose version 2 holds metadata -/
def exMetaInv : Inv := { exInv with manifest :=
  [("d1".toList, ["v1/content/a".toList]), ("d2".toList, ["v2/content/indexer_v2.jsonl.gz".toList])] }

theorem exMetaInv_sound : Sound exMetaInv 2 := by
  refine ⟨⟨⟨exInv_gapFree.1, exInv_gapFree.2⟩, exInv_mapKeysOk⟩, by decide, exInv_contentDir, ?_⟩
  rintro p ⟨d, m, h1, h2⟩
  simp only [exMetaInv, List.mem_cons, List.not_mem_nil, or_false, Prod.mk.injEq] at h1
  rcases h1 with ⟨_, rfl⟩ | ⟨_, rfl⟩
  · simp only [List.mem_cons, List.not_mem_nil, or_false] at h2
    subst h2
    exact ⟨1, by decide, by decide, "content/a".toList, by decide⟩
  · simp only [List.mem_cons, List.not_mem_nil, or_false] at h2
    subst h2
    exact ⟨2, by decide, by decide, "content/indexer_v2.jsonl.gz".toList, by decide⟩

/-- metadata of version 2 after a session that completed -/
example : ∃ inv fs, inv.head = "v3".toList ∧
    readJsonL exCompr [] [] inv fs "indexer".toList "v2".toList exMetaCfg = .ok [7] :=
  ⟨_, _, by decide, C61_read_later_partial (w := exWorld4) (p := "v2/content/indexer_v2.jsonl.gz".toList) exMetaInv_sound
    (.completed (exTwice "c".toList "e".toList) (stampInv exWorld4.time (session exWorld4 exMetaInv (exTwice "c".toList "e".toList)).obj.inv) .now (exTwice_safe ⟨0, by decide⟩ ⟨0, by decide⟩)
      (by decide) (by decide) (sameInv_refl _))
    (show comprExt exMetaCfg.compress = some ".gz".toList by decide) (by decide)
    ⟨"d2".toList, ["v2/content/indexer_v2.jsonl.gz".toList], by decide, by decide⟩
    (show readJsonL exCompr [] [] exMetaInv [("v2/content/indexer_v2.jsonl.gz".toList, [2, 7])] "indexer".toList
      "v2".toList exMetaCfg = .ok [7] by decide)⟩

/-- the default settings of an object with content-subpath and storage type `path`: the file is not found again -/
theorem C61_full_fails : ¬ C61_full := by
  intro hf
  have h := hf exWorld exCompr [exSub] [] exMetaObj 2 "indexer".toList [1, 7] [7]
    ⟨"gzip".toList, "path".toList, "metadata".toList⟩ [] exCompr_ok exMetaObj_wf (by decide) exInv_contentDir
    ⟨by decide, by decide, by decide, by decide⟩ (by simpa using exSub_clean) (by decide) (by decide)
  exact absurd h (by decide)

end Gocfl
