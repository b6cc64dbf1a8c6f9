import Verif.Model.MetaSchema
import Verif.Props.MetaFile
import Verif.Props.Stored

/-!
# C173: the metafile extension of an object can be loaded again
-/

namespace Gocfl

/-! ## What is specified -/

/-- The files that are in the folder of the extension after the updates of an object, each with whatever source of metadata,
successful or not. -/
inductive MetaUpdates (cfg : MetaFileCfg) (folder : Str) (fs : FS) : FS → Prop
  | none : MetaUpdates cfg folder fs fs
  | update {fs1 : FS} {J : Type} (m : MetaFileWorld J) (o : Obj) (info : AMap Str Bytes) :
    MetaUpdates cfg folder fs fs1 → m.cfg = cfg → m.folder = folder → o.trace = [] →
    MetaUpdates cfg folder fs (applyOps fs1 (metaBefore m ⟨o, false, info⟩).st.obj.trace)

/-- The configuration and the schema found in the folder of the extension are these, without asking any address. -/
def LoadsAs (L : MetaLoader) (fs : FS) (folder : Str) (s : MetaSetup) (schema : Bytes) : Prop :=
  ∀ web, newMetaFile L web fs (extPath folder) = .ok (s, schema)

/-- The name of the metadata file in the folder of the extension. -/
def metaFileName (cfg : MetaFileCfg) : Str := trimLeft (pathJoin [cfg.storageName, cfg.metaName]) "/".toList

/-! ## Proofs -/

/-- What is loaded was checked: the schema has a name that is not that of the configuration, and compiles. -/
theorem newMetaFile_ok {L : MetaLoader} {web : Str → Option Bytes} {fs : FS} {dir : Str} {s : MetaSetup} {schema : Bytes}
    (h : newMetaFile L web fs dir = .ok (s, schema)) :
    s.schema ≠ [] ∧ s.schema ≠ "config.json".toList ∧ s.cfg.metaName ≠ "config.json".toList ∧
      s.name = "NNNN-metafile".toList ∧ L.compiles s.schemaUrl schema = true := by
  unfold newMetaFile at h
  split at h
  · cases h
  · split at h
    · cases h
    · rename_i c _
      split at h
      · cases h
      · rename_i h1
        split at h
        · cases h
        · rename_i h2
          split at h
          · cases h
          · rename_i r hr
            split at h
            · cases h
            · rename_i h3
              split at h
              · rename_i h4
                cases h
                simp only [ne_eq, Decidable.not_not] at h3
                unfold fetchSchema at hr
                split at hr
                · rename_i h5
                  split at hr
                  · cases hr
                  · cases hr; exact ⟨h5, h2, h1, h3, h4⟩
                · split at hr
                  · cases hr
                  · cases hr
                    exact ⟨(by decide : "schema.json".toList ≠ []), (by decide : "schema.json".toList ≠ "config.json".toList), h1, h3, h4⟩
              · cases h

theorem newMetaFile_stored {L : MetaLoader} (hd : ∀ s, L.dec (L.enc s) = some s) {web : Str → Option Bytes} {fs : FS} {dir : Str}
    {s : MetaSetup} {schema : Bytes} (h1 : mget fs (dir ++ '/' :: "config.json".toList) = some (L.enc s))
    (h2 : mget fs (dir ++ '/' :: s.schema) = some schema) (h3 : s.schema ≠ []) (h4 : s.schema ≠ "config.json".toList)
    (h5 : s.cfg.metaName ≠ "config.json".toList) (h6 : s.name = "NNNN-metafile".toList)
    (h7 : L.compiles s.schemaUrl schema = true) : newMetaFile L web fs dir = .ok (s, schema) := by
  unfold newMetaFile fetchSchema
  simp only [h1, hd, if_neg h5, if_neg h4, if_pos h3, h2, h6, ne_eq, not_true_eq_false, if_false, h7, if_true]

theorem extName_inj {folder a b : Str} (h : extPath folder ++ '/' :: a = extPath folder ++ '/' :: b) : a = b := by
  have := List.append_cancel_left h
  simpa using this

theorem storeMeta_ext {J : Type} {m : MetaFileWorld J} (ht : toLower m.cfg.storageType = "extension".toList) (o : Obj)
    (data : Bytes) :
    storeMeta m o data = ok (o.write (writeFile (extPath (m.folder ++ '/' :: metaFileName m.cfg)) data)) := by
  unfold storeMeta
  rw [if_neg (by rw [ht]; decide), if_neg (by rw [ht]; decide), if_pos ht]
  rfl

theorem metaBefore_stores {J : Type} {m : MetaFileWorld J} (ht : toLower m.cfg.storageType = "extension".toList) {o : Obj}
    (ho : o.trace = []) (info : AMap Str Bytes) {u : Url} (hu : m.source = some u) (hp : u.path ≠ []) {data : Bytes}
    (hd : metaData m u o.inv.id = .ok data) : (metaBefore m ⟨o, false, info⟩).st.obj.trace =
      writeFile (extPath m.folder ++ '/' :: metaFileName m.cfg) data := by
  have e : metaBefore m ⟨o, false, info⟩ = ⟨⟨o.write (writeFile (extPath (m.folder ++ '/' :: metaFileName m.cfg)) data), true,
      mset info o.inv.head data⟩, none⟩ := by
    unfold metaBefore
    rw [hu]
    simp only [if_neg hp, Bool.false_eq_true, if_false, hd, storeMeta_ext ht, ok]
  have e2 : extPath m.folder ++ '/' :: metaFileName m.cfg = extPath (m.folder ++ '/' :: metaFileName m.cfg) :=
    List.append_assoc _ _ _
  rw [e, e2]
  show o.trace ++ _ = _
  rw [ho]
  rfl

/-- What one update writes to the folder of the extension: nothing, or the metadata file. -/
theorem metaBefore_ext {J : Type} {m : MetaFileWorld J} (ht : toLower m.cfg.storageType = "extension".toList) {o : Obj}
    (ho : o.trace = []) (info : AMap Str Bytes) :
    (metaBefore m ⟨o, false, info⟩).st.obj.trace = [] ∨ ∃ data, (metaBefore m ⟨o, false, info⟩).st.obj.trace =
      writeFile (extPath m.folder ++ '/' :: metaFileName m.cfg) data := by
  cases hu : m.source with
  | none => left; unfold metaBefore; rw [hu]; exact ho
  | some u =>
    by_cases hp : u.path = []
    · left; unfold metaBefore; rw [hu]; simp only [if_pos hp]; exact ho
    · cases hd : metaData m u o.inv.id with
      | error e => left; unfold metaBefore; rw [hu]; simp only [if_neg hp, Bool.false_eq_true, if_false, hd]; exact ho
      | ok data => exact .inr ⟨data, metaBefore_stores ht ho info hu hp hd⟩

theorem MetaUpdates.other {cfg : MetaFileCfg} {folder : Str} {fs fs1 : FS} (ht : toLower cfg.storageType = "extension".toList)
    (h : MetaUpdates cfg folder fs fs1) {name : Str} (hn : metaFileName cfg ≠ name) :
    mget fs1 (extPath folder ++ '/' :: name) = mget fs (extPath folder ++ '/' :: name) := by
  induction h with
  | none => rfl
  | update m o info _ hc hf ho ih =>
    subst hc hf
    rcases metaBefore_ext ht ho info with e | ⟨data, e⟩
    · rw [e]; exact ih
    · rw [e, mget_writeFile_ne _ _ (fun h => hn (extName_inj h)), ih]

/-- any bytes can be the metadata -/
theorem metaUpdate_any {cfg : MetaFileCfg} (ht : toLower cfg.storageType = "extension".toList) (folder : Str) (fs : FS)
    (data : Bytes) : MetaUpdates cfg folder fs
      (applyOps fs (writeFile (extPath folder ++ '/' :: metaFileName cfg) data)) := by
  let m : MetaFileWorld Bytes := ⟨exWorld, [], folder, cfg, some (exUrl "/o.json"), fun _ => some data, fun _ => none,
    fun _ b => some b, fun _ => true, some, some⟩
  have h := MetaUpdates.update m ⟨exInv, [], false, []⟩ [] (MetaUpdates.none (cfg := cfg) (folder := folder) (fs := fs)) rfl rfl rfl
  have hd : metaData m (exUrl "/o.json") exInv.id = .ok data := by
    have e0 : metaSource m (exUrl "/o.json") exInv.id = some ("/o.json".toList, fun _ => some data) := rfl
    have e1 : toLower (fileExt "/o.json".toList) ∈ [".json".toList, ".yaml".toList, ".toml".toList] := by decide
    unfold metaData
    rw [e0]
    simp only [if_pos e1]
    rfl
  have e := metaBefore_stores (m := m) ht (o := ⟨exInv, [], false, []⟩) rfl [] rfl (u := exUrl "/o.json") (by decide) hd
  rw [e] at h
  exact h

/-- C173 in full: whatever configuration was accepted, after the object was created with it and updated any number of times
the same configuration and schema are loaded from the object, also if the address of the schema does not answer any more. -/
def C173_full : Prop :=
  ∀ (L : MetaLoader) (web : Str → Option Bytes) (src : FS) (dir : Str) (s : MetaSetup) (schema : Bytes) (fs fs1 : FS)
    (folder : Str), (∀ s, L.dec (L.enc s) = some s) → newMetaFile L web src dir = .ok (s, schema) →
    toLower s.cfg.storageType = "extension".toList →
    MetaUpdates s.cfg folder (applyOps fs (writeMetaConfig L s schema (extPath folder))) fs1 → LoadsAs L fs1 folder s schema

/-- C173 right after the object was created: for every configuration and storage type. -/
theorem C173_created {L : MetaLoader} (hd : ∀ s, L.dec (L.enc s) = some s) {web : Str → Option Bytes} {src : FS} {dir : Str}
    {s : MetaSetup} {schema : Bytes} (h : newMetaFile L web src dir = .ok (s, schema)) (fs : FS) (folder : Str) :
    LoadsAs L (applyOps fs (writeMetaConfig L s schema (extPath folder))) folder s schema := by
  obtain ⟨h1, h2, h3, h4, h5⟩ := newMetaFile_ok h
  intro web'
  refine newMetaFile_stored hd ?_ ?_ h1 h2 h3 h4 h5
  · rw [writeMetaConfig, applyOps_append, mget_writeFile]
  · rw [writeMetaConfig, applyOps_append, mget_writeFile_ne _ _ (fun e => h2 (extName_inj e).symm), mget_writeFile]

/-- C173, exact: the extension stays the same through all updates exactly if the metadata file has neither the name of the
configuration nor that of the schema. -/
theorem C173_kept_iff_partial {L : MetaLoader} (hd : ∀ s, L.dec (L.enc s) = some s) {web : Str → Option Bytes} {src : FS} {dir : Str}
    {s : MetaSetup} {schema : Bytes} (h : newMetaFile L web src dir = .ok (s, schema))
    (ht : toLower s.cfg.storageType = "extension".toList) (fs : FS) (folder : Str) :
    (∀ fs1, MetaUpdates s.cfg folder (applyOps fs (writeMetaConfig L s schema (extPath folder))) fs1 →
        LoadsAs L fs1 folder s schema) ↔
      metaFileName s.cfg ≠ "config.json".toList ∧ metaFileName s.cfg ≠ s.schema := by
  obtain ⟨h1, h2, h3, h4, h5⟩ := newMetaFile_ok h
  constructor
  · intro hall
    refine ⟨fun e => ?_, fun e => ?_⟩
    · have hl := hall _ (metaUpdate_any ht folder _ (L.enc { s with schemaUrl := 'x' :: s.schemaUrl })) (fun _ => none)
      rw [e] at hl
      simp only [newMetaFile, mget_writeFile, hd, if_neg h3, if_neg h2, fetchSchema, if_pos h1] at hl
      split at hl
      · cases hl
      · rename_i r hr
        split at hr
        · cases hr
        · cases hr
          simp only at hl
          split at hl
          · cases hl
          · split at hl
            · have := congrArg (fun r => r.1.schemaUrl.length) (Except.ok.inj hl)
              simp at this
            · cases hl
    · have hl := hall _ (metaUpdate_any ht folder _ (0 :: schema)) (fun _ => none)
      have hcfg : mget (applyOps fs (writeMetaConfig L s schema (extPath folder)))
          (extPath folder ++ '/' :: "config.json".toList) = some (L.enc s) := by
        rw [writeMetaConfig, applyOps_append, mget_writeFile]
      rw [e] at hl
      have hne : extPath folder ++ '/' :: s.schema ≠ extPath folder ++ '/' :: "config.json".toList :=
        fun e => h2 (extName_inj e)
      simp only [newMetaFile, mget_writeFile_ne _ _ hne, hcfg, hd, if_neg h3, if_neg h2, fetchSchema, if_pos h1,
        mget_writeFile] at hl
      split at hl
      · cases hl
      · split at hl
        · have := congrArg (fun r => r.2.length) (Except.ok.inj hl)
          simp at this
        · cases hl
  · rintro ⟨g1, g2⟩ fs1 hu web'
    refine newMetaFile_stored hd ?_ ?_ h1 h2 h3 h4 h5
    · rw [hu.other ht g1, writeMetaConfig, applyOps_append, mget_writeFile]
    · rw [hu.other ht g2, writeMetaConfig, applyOps_append, mget_writeFile_ne _ _ (fun e => h2 (extName_inj e).symm),
        mget_writeFile]

/-- The checks of the names keep nothing from having the name of the configuration: `./config.json` is accepted. -/
example : metaFileName ⟨"extension".toList, [], "./config.json".toList⟩ = "config.json".toList ∧
    metaFileName ⟨"extension".toList, "meta".toList, "../config.json".toList⟩ = "config.json".toList := by decide

/-! ## Cases -/

instance : Countable MetaSetup := Function.Injective.countable
  (f := fun s : MetaSetup => (s.name, s.cfg.storageType, s.cfg.storageName, s.cfg.metaName, s.schema, s.schemaUrl))
  (fun a b h => by
    obtain ⟨_, ⟨_, _, _⟩, _, _⟩ := a
    obtain ⟨_, ⟨_, _, _⟩, _, _⟩ := b
    simpa [and_assoc] using h)

theorem exSetup_codec : ∃ (enc : MetaSetup → Bytes) (dec : Bytes → Option MetaSetup), ∀ s, dec (enc s) = some s := by
  classical
  obtain ⟨f, hf⟩ := exists_injective_nat MetaSetup
  have hinj : Function.Injective (fun s => List.replicate (f s) (0 : UInt8)) := fun a b h => by
    have := congrArg List.length h
    simp only [List.length_replicate] at this
    exact hf this
  refine ⟨fun s => List.replicate (f s) 0, fun b => if h : ∃ s, List.replicate (f s) 0 = b then some (Classical.choose h) else none,
    fun s => ?_⟩
  have h : ∃ t, List.replicate (f t) (0 : UInt8) = List.replicate (f s) 0 := ⟨s, rfl⟩
  simp only
  rw [dif_pos h]
  exact congrArg some (hinj (Classical.choose_spec h))

/-- a configuration that has the schema from an address -/
def exSetup (storage name : String) : MetaSetup :=
  ⟨"NNNN-metafile".toList, ⟨"extension".toList, storage.toList, name.toList⟩, [], "https://example.org/s.json".toList⟩

def exSetup' (storage name : String) : MetaSetup := { exSetup storage name with schema := "schema.json".toList }

/-- It is loaded with the schema that the address answers, here `{}`. -/
theorem exSetup_loads {L : MetaLoader} (hd : ∀ s, L.dec (L.enc s) = some s) (hc : ∀ u b, L.compiles u b = true) {storage name : String}
    (hn : name.toList ≠ "config.json".toList) :
    newMetaFile L (fun _ => some [123, 125]) [("x/config.json".toList, L.enc (exSetup storage name))] "x".toList =
      .ok (exSetup' storage name, [123, 125]) := by
  have h1 : mget [("x/config.json".toList, L.enc (exSetup storage name))] ("x".toList ++ '/' :: "config.json".toList) =
      some (L.enc (exSetup storage name)) := rfl
  unfold newMetaFile
  rw [h1]
  simp only [hd]
  rw [if_neg (show ¬ (exSetup storage name).cfg.metaName = "config.json".toList from hn),
    if_neg (show ¬ (exSetup storage name).schema = "config.json".toList from (by decide : ¬ ([] : Str) = "config.json".toList))]
  have h2 : fetchSchema (fun _ => some [123, 125]) [("x/config.json".toList, L.enc (exSetup storage name))] "x".toList
      (exSetup storage name) = .ok (exSetup' storage name, [123, 125]) := rfl
  rw [h2]
  simp only [hc, if_true]
  rfl

/-- Metadata in the folder `metadata` of the extension: after any number of updates the extension is loaded from the object. -/
example : ∃ (L : MetaLoader) (s : MetaSetup) (schema : Bytes), s.schemaUrl = "https://example.org/s.json".toList ∧
    ∀ fs fs1 folder, MetaUpdates s.cfg folder (applyOps fs (writeMetaConfig L s schema (extPath folder))) fs1 →
      LoadsAs L fs1 folder s schema := by
  obtain ⟨enc, dec, hd⟩ := exSetup_codec
  have h := exSetup_loads (L := ⟨dec, enc, fun _ _ => true⟩) hd (fun _ _ => rfl) (storage := "metadata") (name := "info.json") (by decide)
  exact ⟨_, _, _, rfl, fun fs fs1 folder => (C173_kept_iff_partial hd h (by decide) fs folder).2 ⟨by decide, by decide⟩ fs1⟩

/-- **C173 is violated**: with the metadata file `schema.json` in the folder of the extension itself the first metadata
replaces the schema; it is then the schema for all later metadata. -/
theorem C173_full_fails : ¬ C173_full := by
  intro hf
  obtain ⟨enc, dec, hd⟩ := exSetup_codec
  have h := exSetup_loads (L := ⟨dec, enc, fun _ _ => true⟩) hd (fun _ _ => rfl) (storage := "") (name := "schema.json") (by decide)
  exact ((C173_kept_iff_partial hd h (by decide) [] "NNNN-metafile".toList).1
    (fun fs1 hu => hf _ _ _ _ _ _ _ _ _ hd h (by decide) hu)).2 (by decide)

/-- **C173 is violated** also by configurations that name the metadata file `./config.json`: the test of the name compares
texts, and the first metadata replaces the configuration. -/
theorem C173_full_fails_config : ¬ C173_full := by
  intro hf
  obtain ⟨enc, dec, hd⟩ := exSetup_codec
  have h := exSetup_loads (L := ⟨dec, enc, fun _ _ => true⟩) hd (fun _ _ => rfl) (storage := "") (name := "./config.json") (by decide)
  exact ((C173_kept_iff_partial hd h (by decide) [] "NNNN-metafile".toList).1
    (fun fs1 hu => hf _ _ _ _ _ _ _ _ _ hd h (by decide) hu)).1 (by decide)

example : ∃ (L : MetaLoader) (s : MetaSetup), LoadsAs L (applyOps [] (writeMetaConfig L s [123, 125] (extPath "e".toList))) "e".toList
    s [123, 125] ∧ s = exSetup' "metadata" "info.json" := by
  obtain ⟨enc, dec, hd⟩ := exSetup_codec
  exact ⟨_, _, C173_created hd (exSetup_loads (L := ⟨dec, enc, fun _ _ => true⟩) hd (fun _ _ => rfl) (by decide)) [] _, rfl⟩

end Gocfl
