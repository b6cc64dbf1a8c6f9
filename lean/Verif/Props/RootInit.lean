import Verif.Model.RootInit
import Verif.Props.ExtLoad
import Verif.Props.RootCheck
import Verif.Props.Root

/-!
# C132, C133: creating a storage root, and opening it again
-/

namespace Gocfl

variable {β : Type}

/-! ## Lists of files written -/

theorem writeAll_append (a b : List (Str × Bytes)) : writeAll (a ++ b) = writeAll a ++ writeAll b := by
  unfold writeAll; rw [List.flatMap_append]

theorem writeAll_path {l : List (Str × Bytes)} {op : FsOp} (h : op ∈ writeAll l) : op.path ∈ l.map (·.1) := by
  unfold writeAll at h
  obtain ⟨f, hf, h⟩ := List.mem_flatMap.1 h
  simp only [writeFile, List.mem_cons, List.not_mem_nil, or_false] at h
  rcases h with rfl | rfl <;> exact List.mem_map.2 ⟨f, hf, rfl⟩

theorem mget_writeAll_ne {fs : FS} {l : List (Str × Bytes)} {p : Str} (h : p ∉ l.map (·.1)) :
    mget (applyOps fs (writeAll l)) p = mget fs p :=
  mget_applyOps_ne (fun _ hop he => h (he ▸ writeAll_path hop))

theorem mget_writeAll {fs : FS} {l : List (Str × Bytes)} {p : Str} {b : Bytes} (hm : (p, b) ∈ l)
    (hu : ∀ b', (p, b') ∈ l → b' = b) : mget (applyOps fs (writeAll l)) p = some b := by
  induction l generalizing fs with
  | nil => cases hm
  | cons f l ih =>
    have e : writeAll (f :: l) = writeFile f.1 f.2 ++ writeAll l := rfl
    rw [e, applyOps_append]
    by_cases hl : ∃ b', (p, b') ∈ l
    · obtain ⟨b', hb'⟩ := hl
      have := hu b' (List.mem_cons_of_mem _ hb')
      subst this
      exact ih hb' (fun b'' h => hu b'' (List.mem_cons_of_mem _ h))
    · rcases List.mem_cons.1 hm with rfl | hm
      · rw [mget_writeAll_ne, mget_writeFile]
        intro h
        obtain ⟨x, hx, he⟩ := List.mem_map.1 h
        exact hl ⟨x.2, by rw [← he]; exact hx⟩
      · exact absurd ⟨b, hm⟩ hl

/-- In a crash of writing files with different names, a file has an initial part of what was to be written. -/
theorem crash_writeAll {l : List (Str × Bytes)} {t : List FsOp} (h : CrashPrefix t (writeAll l)) {fs : FS} {p : Str} {b0 b : Bytes}
    (hn : (p, b0) ∈ l) (hu : ∀ b', (p, b') ∈ l → b' = b0) (hf : mget fs p = none ∨ mget fs p = some b0)
    (hb : mget (applyOps fs t) p = some b) : ∃ r, b0 = b ++ r := by
  induction l generalizing fs t with
  | nil => cases hn
  | cons f l ih =>
    have e : writeAll (f :: l) = writeFile f.1 f.2 ++ writeAll l := rfl
    rw [e] at h
    rcases h.append with h1 | ⟨u, h1, rfl⟩
    · by_cases hp : f.1 = p
      · have hf2 : f.2 = b0 := hu f.2 (by rw [← hp]; exact List.mem_cons_self)
        rcases h1.writeFile with rfl | rfl | ⟨b1, b2, h2, rfl⟩
        · rw [applyOps_nil] at hb
          rcases hf with hf | hf
          · rw [hf] at hb; cases hb
          · rw [hf] at hb; cases hb; exact ⟨[], by simp⟩
        · rw [applyOps_cons, applyOps_nil] at hb
          simp only [FsOp.apply, hp, mget_mset_self] at hb
          cases hb; exact ⟨b0, rfl⟩
        · rw [applyOps_cons, applyOps_cons, applyOps_nil] at hb
          simp only [FsOp.apply, hp, mget_mset_self, Option.getD_some, List.nil_append] at hb
          cases hb
          exact ⟨b2, by rw [← hf2, h2]⟩
      · have : mget (applyOps fs t) p = mget fs p := by
          apply mget_applyOps_ne
          intro op hop he
          obtain ⟨o, ho, h3⟩ := h1.path hop
          simp only [writeFile, List.mem_cons, List.not_mem_nil, or_false] at ho
          apply hp
          rw [← he, ← h3]
          rcases ho with rfl | rfl <;> rfl
        rw [this] at hb
        rcases hf with hf | hf
        · rw [hf] at hb; cases hb
        · rw [hf] at hb; cases hb; exact ⟨[], by simp⟩
    · rw [applyOps_append] at hb
      by_cases hl : (p, b0) ∈ l
      · refine ih h1 hl (fun b' hb' => hu b' (List.mem_cons_of_mem _ hb')) ?_ hb
        by_cases hp : f.1 = p
        · right
          have hf2 : f.2 = b0 := hu f.2 (by rw [← hp]; exact List.mem_cons_self)
          rw [hp, hf2, mget_writeFile]
        · rwa [mget_writeFile_ne _ _ hp]
      · rcases List.mem_cons.1 hn with rfl | hn
        · have : mget (applyOps (applyOps fs (writeFile p b0)) u) p = some b0 := by
            rw [mget_applyOps_ne, mget_writeFile]
            intro op hop he
            obtain ⟨o, ho, h3⟩ := h1.path hop
            have := writeAll_path ho
            rw [h3, he] at this
            obtain ⟨x, hx, h4⟩ := List.mem_map.1 this
            have h5 := hu x.2 (List.mem_cons_of_mem _ (by rw [← h4]; exact hx))
            apply hl
            rw [← h5, ← h4]
            exact hx
          simp only at hb
          rw [this] at hb; cases hb
          exact ⟨[], by simp⟩
        · exact absurd hn hl

/-! ## Folders of extensions -/

theorem extFolderOf_cfg {n : Str} (h : '/' ∉ n) : extFolderOf (cfgPath n) = some n := by
  unfold extFolderOf cfgPath
  rw [if_pos (List.isPrefixOf_iff_prefix.2 ⟨_, rfl⟩)]
  have e : ("extensions/".toList ++ (n ++ "/config.json".toList)).drop "extensions/".toList.length = n ++ "/config.json".toList := by
    rw [List.drop_append_of_le_length (Nat.le_refl _), List.drop_length, List.nil_append]
  simp only [e]
  rw [if_pos (by
    rw [List.mem_append]; right; decide)]
  congr 1
  have h2 : "/config.json".toList = '/' :: "config.json".toList := by decide
  rw [h2, List.takeWhile_append_of_pos (by
    intro c hc
    rw [decide_eq_true_eq]
    rintro rfl
    exact h hc)]
  rw [List.takeWhile_cons_of_neg (by decide)]
  simp

theorem extFolderOf_plain {p : Str} (h : '/' ∉ p) : extFolderOf p = none := by
  unfold extFolderOf
  rw [if_neg]
  intro hp
  obtain ⟨t, rfl⟩ := List.isPrefixOf_iff_prefix.1 hp
  apply h
  rw [List.mem_append]; left; decide

theorem cfgPath_inj {n k : Str} (h : cfgPath n = cfgPath k) : n = k := by
  unfold cfgPath at h
  exact List.append_cancel_right (List.append_cancel_left h)

theorem cfgPath_slash (n : Str) : '/' ∈ cfgPath n := by
  unfold cfgPath
  rw [List.mem_append]; left; decide

theorem mem_extFolders {s : RootDisk} {n : Str} : n ∈ extFolders s ↔ n ∈ s.made ∨ ∃ p ∈ mkeys s.fs, extFolderOf p = some n := by
  unfold extFolders
  rw [List.mem_dedup, List.mem_append, List.mem_filterMap]

theorem extDirs_eq {T : CfgText β} {s : RootDisk} {d : AMap Str (Option (ExtCfg β))} (hd : (mkeys d).Nodup)
    (hk : ∀ n, n ∈ extFolders s ↔ n ∈ mkeys d)
    (hv : ∀ n v, (n, v) ∈ d → (mget s.fs (cfgPath n)).bind T.dec = v) : extDirs T s = readDirs d := by
  have hp : (extFolders s).Perm (mkeys d) := by
    rw [List.perm_ext_iff_of_nodup (by unfold extFolders; exact List.nodup_dedup _) hd]
    exact hk
  unfold extDirs
  have h1 : d.Perm ((mkeys d).map (fun n => (n, (mget s.fs (cfgPath n)).bind T.dec))) := by
    have : d = (mkeys d).map (fun n => (n, (mget s.fs (cfgPath n)).bind T.dec)) := by
      unfold mkeys
      rw [List.map_map]
      conv_lhs => rw [← List.map_id d]
      apply List.map_congr_left
      rintro ⟨n, v⟩ he
      simp only [Function.comp, id, hv n v he]
    rw [← this]
  have h2 : (readDirs d).Perm ((sortStr (extFolders s)).map (fun n => (n, (mget s.fs (cfgPath n)).bind T.dec))) :=
    (sortBy_perm _ _).trans (h1.trans (((sortStr_perm _).trans hp).symm.map _))
  refine (h2.eq_of_pairwise (le := fun a b => strLe a.1 b.1 = true) ?_ (List.pairwise_map.1 (readDirs_sorted d)) ?_).symm
  · intro a b ha hb hab hba
    have hab := strLe_antisymm hab hba
    obtain ⟨n, _, rfl⟩ := List.mem_map.1 hb
    obtain ⟨n', _, rfl⟩ := List.mem_map.1 (h2.mem_iff.1 ha)
    simp only at hab
    rw [hab]
  · exact List.pairwise_map.2 (sortStr_sorted _)

/-! ## Extensions that come back in another state -/

/-- the extension with the state `back` gives -/
def Ext.back (back : Str → β → β) : Ext β → Ext β
  | .other n s => .other n (back n s)
  | e => e

theorem Ext.back_name (back : Str → β → β) (e : Ext β) : (e.back back).name = e.name := by cases e <;> rfl

theorem goodExts_back {make : Str → Option β → Option β} {back : Str → β → β} {l : List (Ext β)} (hg : GoodExts make l)
    (hb : ∀ n s, Ext.other n s ∈ l → make n (some s) = some (back n s)) : GoodExts make (l.map (Ext.back back)) := by
  have hname : (l.map (Ext.back back)).map Ext.name = l.map Ext.name := by
    rw [List.map_map]
    exact List.map_congr_left (fun e _ => Ext.back_name back e)
  refine ⟨?_, by rw [hname]; exact hg.nodup, by rw [hname]; exact hg.sorted⟩
  intro e he
  obtain ⟨x, hx, rfl⟩ := List.mem_map.1 he
  obtain ⟨n, s, rfl, h1, h2, _⟩ := hg.others x hx
  exact ⟨n, back n s, rfl, h1, h2, some s, hb n s hx⟩

/-- As C96, for extensions whose configuration comes back as `back` says. -/
theorem reload_back {make : Str → Option β → Option β} {back : Str → β → β} {m : ExtMgr β} (hg : GoodExts make m.exts)
    (hb : ∀ n s, Ext.other n s ∈ m.exts → make n (some s) = some (back n s)) (hi : m.initial = (nmInitial, nmManager))
    (hr : m.sort ≠ [] ∨ m.exclusion ≠ []) (report' folders : Bool) :
    createExtensions make report' (readDirs (storeExts folders m)) = .ok ({ m with exts := m.exts.map (Ext.back back) }, false) := by
  obtain ⟨so, ex, exts, ini⟩ := m
  simp only at hg hb hi hr ⊢
  subst hi
  have hp := store_perm (m := ⟨so, ex, exts, (nmInitial, nmManager)⟩) hg folders
  have hF : (mgrFiles (⟨so, ex, exts, (nmInitial, nmManager)⟩ : ExtMgr β)).map (fun e => (e.1, some e.2)) =
      (exts ++ [Ext.initial nmInitial nmManager, .manager so ex]).map (fun e : Ext β => (e.name, some e.cfg)) := by
    unfold mgrFiles
    rw [if_pos hr.symm]
    simp [Ext.name]
  have hleft : ((if folders then [(nmManager, (none : Option (ExtCfg β)))] else []).filter
      (fun e => decide (e.1 ∉ (mgrFiles (⟨so, ex, exts, (nmInitial, nmManager)⟩ : ExtMgr β)).map (·.1)))) = [] := by
    rw [List.filter_eq_nil_iff]
    intro e he
    have : e.1 = nmManager := by
      cases folders
      · cases he
      · rw [List.mem_singleton.1 he]
    rw [this]
    simp only [decide_eq_true_eq, not_not]
    unfold mgrFiles
    rw [if_pos hr.symm]
    simp
  rw [hF, hleft, List.append_nil] at hp
  have hscan : ∀ e ∈ exts ++ [Ext.initial nmInitial nmManager, .manager so ex],
      scanFolder make (e.name, some e.cfg) = some [e.back back] := by
    intro e he
    rcases List.mem_append.1 he with he | he
    · obtain ⟨n, s, rfl, h1, h2, _⟩ := hg.others e he
      have : createExt make (Ext.other n s).cfg = some (.other n (back n s)) := by
        unfold createExt Ext.cfg
        simp only [if_neg h1, if_neg h2, hb n s he, Option.map_some]
      show scanFolder make (n, some (Ext.other n s).cfg) = some [.other n (back n s)]
      unfold scanFolder
      simp only [Option.bind_some, this, Option.map_some]
      rw [if_neg (fun h => h1 h.1)]
    · simp only [List.mem_cons, List.not_mem_nil, or_false] at he
      rcases he with rfl | rfl <;> rfl
  have hD : ∀ d ∈ readDirs (storeExts folders (⟨so, ex, exts, (nmInitial, nmManager)⟩ : ExtMgr β)), ∃ e : Ext β,
      d = (e.name, some e.cfg) ∧ scanFolder make d = some [e.back back] := by
    intro d hd
    obtain ⟨e, he, rfl⟩ := List.mem_map.1 (hp.mem_iff.1 hd)
    exact ⟨e, rfl, hscan e he⟩
  refine created_of_perm (goodExts_back hg hb) (readDirs_sorted _) (Or.inr ?_) ?_ ?_
  · intro d hd
    obtain ⟨e, _, h2⟩ := hD d hd
    rw [h2]; simp
  · intro d hd
    obtain ⟨e, h1, h2⟩ := hD d hd
    unfold contrib
    rw [h2, h1]
    simp only [Option.getD_some]
    refine ((List.filter_sublist.trans List.filter_sublist).map _).trans ?_
    rw [List.map_singleton, Ext.back_name]
  · have h1 := List.Perm.flatMap_right (contrib make) hp
    refine h1.trans ?_
    have h2 : ((exts ++ [Ext.initial nmInitial nmManager, .manager so ex]).map (fun e : Ext β => (e.name, some e.cfg))).flatMap
        (contrib make) = (exts ++ [Ext.initial nmInitial nmManager, .manager so ex]).map (Ext.back back) := by
      generalize (exts ++ [Ext.initial nmInitial nmManager, .manager so ex]) = l at hscan
      induction l with
      | nil => rfl
      | cons e l ih =>
        rw [List.map_cons, List.flatMap_cons, ih (fun x hx => hscan x (List.mem_cons_of_mem _ hx))]
        unfold contrib
        rw [hscan e List.mem_cons_self]
        rfl
    rw [h2, List.map_append]
    exact List.Perm.refl _

/-! ## The storage root after `init` -/

/-- What is assumed of the configuration `init` is called with: a supported version, documents with ordinary names, extensions
in order (as they are when loaded from folders with their names, `created_own`) with names that are no paths. -/
structure InitOk (make : Str → Option β → Option β) (a : InitArgs β) (m : ExtMgr β) : Prop where
  supported : supportedRoot a.version = true
  docs : ∀ d ∈ a.docs, '/' ∉ d.1 ∧ '=' ∉ d.1
  exts : GoodExts make m.exts
  names : ∀ e ∈ m.exts, '/' ∉ e.name
  initial : m.initial = (nmInitial, nmManager)
  rules : m.sort ≠ [] ∨ m.exclusion ≠ []

theorem InitOk.version_slash {make : Str → Option β → Option β} {a : InitArgs β} {m : ExtMgr β} (h : InitOk make a m) :
    '/' ∉ "0=".toList ++ (rootDecl ++ a.version) := by
  have h := supportedRoot_iff.1 h.supported
  simp only [List.mem_cons, List.not_mem_nil, or_false] at h
  rcases h with h | h | h <;> rw [h] <;> decide

theorem initTop_noSlash {make : Str → Option β → Option β} {a : InitArgs β} {m : ExtMgr β} (h : InitOk make a m) :
    ∀ p ∈ (initTop a).map (·.1), '/' ∉ p := by
  intro p hp
  obtain ⟨f, hf, rfl⟩ := List.mem_map.1 hp
  rcases List.mem_cons.1 hf with rfl | hf
  · exact h.version_slash
  · exact (h.docs f hf).1

theorem mgrFiles_noSlash {make : Str → Option β → Option β} {a : InitArgs β} {m : ExtMgr β} (h : InitOk make a m) :
    ∀ e ∈ mgrFiles m, '/' ∉ e.1 := by
  intro e he
  unfold mgrFiles at he
  rcases List.mem_append.1 he with he | he
  · obtain ⟨x, hx, rfl⟩ := List.mem_map.1 he
    rcases List.mem_append.1 hx with hx | hx
    · exact h.names x hx
    · rw [List.mem_singleton.1 hx]; show '/' ∉ nmInitial; decide
  · split at he
    · rw [List.mem_singleton.1 he]; show '/' ∉ nmManager; decide
    · cases he

theorem initFolders_mem {make : Str → Option β → Option β} {a : InitArgs β} {m : ExtMgr β} (h : InitOk make a m) {n : Str} :
    n ∈ initFolders true m ↔ n ∈ (mgrFiles m).map (·.1) := by
  unfold initFolders mgrFiles
  rw [if_pos rfl, if_pos h.rules.symm]
  simp [Function.comp_def]

theorem initFolders_sub {make : Str → Option β → Option β} {a : InitArgs β} {m : ExtMgr β} (h : InitOk make a m) {folders : Bool}
    {n : Str} (hn : n ∈ initFolders folders m) : n ∈ (mgrFiles m).map (·.1) := by
  cases folders
  · cases hn
  · exact (initFolders_mem h).1 hn

theorem storeExts_keys {make : Str → Option β → Option β} {a : InitArgs β} {m : ExtMgr β} (h : InitOk make a m) (folders : Bool)
    (n : Str) : n ∈ mkeys (storeExts folders m) ↔ n ∈ (mgrFiles m).map (·.1) := by
  have hp := store_perm h.exts folders
  have h1 : n ∈ mkeys (storeExts folders m) ↔ n ∈ (readDirs (storeExts folders m)).map (·.1) := by
    unfold mkeys readDirs
    exact ((sortBy_perm _ _).map _).mem_iff.symm
  rw [h1, (hp.map _).mem_iff, List.map_append, List.map_map, List.mem_append]
  constructor
  · rintro (h2 | h2)
    · exact h2
    · obtain ⟨e, he, rfl⟩ := List.mem_map.1 h2
      have := (List.mem_filter.1 he).1
      cases folders
      · cases this
      · rw [List.mem_singleton.1 this]
        unfold mgrFiles
        rw [if_pos h.rules.symm]
        simp
  · exact Or.inl

theorem storeExts_mem {make : Str → Option β → Option β} {a : InitArgs β} {m : ExtMgr β} (h : InitOk make a m) (folders : Bool)
    {n : Str} {v : Option (ExtCfg β)} (hv : (n, v) ∈ storeExts folders m) : ∃ c, (n, c) ∈ mgrFiles m ∧ v = some c := by
  have hp := store_perm h.exts folders
  have h1 : (n, v) ∈ readDirs (storeExts folders m) := (sortBy_perm _ _).mem_iff.2 hv
  rcases List.mem_append.1 (hp.mem_iff.1 h1) with h2 | h2
  · obtain ⟨e, he, h3⟩ := List.mem_map.1 h2
    cases h3
    exact ⟨e.2, he, rfl⟩
  · exfalso
    obtain ⟨h3, h4⟩ := List.mem_filter.1 h2
    cases folders
    · cases h3
    · have := List.mem_singleton.1 h3
      cases this
      simp only [decide_eq_true_eq] at h4
      apply h4
      unfold mgrFiles
      rw [if_pos h.rules.symm]
      simp

theorem storeExts_nodup {m : ExtMgr β} (folders : Bool) : (mkeys (storeExts folders m)).Nodup := by
  unfold storeExts
  have key : ∀ (l : List (Str × ExtCfg β)) (d : AMap Str (Option (ExtCfg β))), (mkeys d).Nodup →
      (mkeys (l.foldl (fun d e => mset d e.1 (some e.2)) d)).Nodup := by
    intro l
    induction l with
    | nil => intro d h; exact h
    | cons e l ih => intro d h; exact ih _ (mkeys_mset_nodup h _ _)
  apply key
  cases folders <;> simp [mkeys]

/-- where the files of the folder `extensions` of a storage root come from -/
theorem initExt_folder {make : Str → Option β → Option β} {a : InitArgs β} {m : ExtMgr β} (h : InitOk make a m) {T : CfgText β}
    {layouts : List (Ext β)} {p n : Str} (hp : p ∈ (initTop a ++ initExt T a m layouts).map (·.1)) (hn : extFolderOf p = some n) :
    n ∈ (mgrFiles m).map (·.1) := by
  obtain ⟨f, hf, rfl⟩ := List.mem_map.1 hp
  rcases List.mem_append.1 hf with hf | hf
  · rw [extFolderOf_plain (initTop_noSlash h _ (List.mem_map.2 ⟨f, hf, rfl⟩))] at hn
    cases hn
  · rcases List.mem_append.1 hf with hf | hf
    · obtain ⟨e, he, rfl⟩ := List.mem_map.1 hf
      rw [extFolderOf_cfg (mgrFiles_noSlash h e he)] at hn
      cases hn
      exact List.mem_map.2 ⟨e, he, rfl⟩
    · obtain ⟨l, _, rfl⟩ := List.mem_map.1 hf
      rw [extFolderOf_plain (by show '/' ∉ "ocfl_layout.json".toList; decide)] at hn
      cases hn

/-- each configuration is written under a path of its own -/
theorem initExt_unique {make : Str → Option β → Option β} {a : InitArgs β} {m : ExtMgr β} (h : InitOk make a m) {T : CfgText β}
    {layouts : List (Ext β)} {n : Str} {c : ExtCfg β} (hc : (n, c) ∈ mgrFiles m) :
    (cfgPath n, T.enc c) ∈ initExt T a m layouts ∧ (∀ b, (cfgPath n, b) ∈ initExt T a m layouts → b = T.enc c) ∧
      cfgPath n ∉ (initTop a).map (·.1) := by
  refine ⟨List.mem_append_left _ (List.mem_map.2 ⟨_, hc, rfl⟩), ?_, fun hp => initTop_noSlash h _ hp (cfgPath_slash n)⟩
  intro b hb
  rcases List.mem_append.1 hb with hb | hb
  · obtain ⟨e, he, h1⟩ := List.mem_map.1 hb
    have h2 := cfgPath_inj (congrArg Prod.fst h1)
    have h3 : e.2 = c := by
      have h4 := mget_of_mem (m := mgrFiles m) (mgrFiles_nodup h.exts) (k := n) (v := e.2) (by rw [← h2]; exact he)
      have h5 := mget_of_mem (m := mgrFiles m) (mgrFiles_nodup h.exts) hc
      rw [h4] at h5; cases h5; rfl
    rw [← h3]
    exact (congrArg Prod.snd h1).symm
  · obtain ⟨l, _, h1⟩ := List.mem_map.1 hb
    exfalso
    have h2 := cfgPath_slash n
    have h3 : "ocfl_layout.json".toList = cfgPath n := congrArg Prod.fst h1
    rw [← h3] at h2
    exact absurd h2 (by decide)

/-- the declaration is in place, and the only one -/
theorem init_declared {make : Str → Option β → Option β} {a : InitArgs β} {m : ExtMgr β} (h : InitOk make a m) {T : CfgText β}
    {layouts : List (Ext β)} {fs : FS}
    (hd : mget fs ("0=".toList ++ (rootDecl ++ a.version)) = some (asBytes (rootDecl ++ a.version ++ "\n".toList)))
    (hk : ∀ p, mget fs p ≠ none → p ∈ (initTop a ++ initExt T a m layouts).map (·.1)) : RootDeclared fs a.version := by
  have hname : "0=".toList ++ (rootDecl ++ a.version) = "0=ocfl_".toList ++ a.version := by unfold rootDecl; simp
  have hsup := supportedRoot_iff.1 h.supported
  refine ⟨hsup, ⟨_, by rw [← hname]; exact hd, Or.inl ?_⟩, ?_⟩
  · simp only [List.mem_cons, List.not_mem_nil, or_false] at hsup
    rcases hsup with h1 | h1 | h1 <;> rw [h1] <;> decide
  · intro n b hn hsl u hu hin
    have h1 := hk n (by rw [hn]; simp)
    obtain ⟨f, hf, rfl⟩ := List.mem_map.1 h1
    have heq : '=' ∈ f.1 := by
      obtain ⟨x, y, hxy⟩ := hin
      rw [← hxy]
      have : '=' ∈ "0=ocfl_".toList := by decide
      simp only [List.mem_append]
      exact Or.inl (Or.inr (Or.inl this))
    rcases List.mem_append.1 hf with hf | hf
    · rcases List.mem_cons.1 hf with rfl | hf
      · exact hname
      · exact absurd heq (h.docs f hf).2
    · rcases List.mem_append.1 hf with hf | hf
      · obtain ⟨e, _, rfl⟩ := List.mem_map.1 hf
        exact absurd (cfgPath_slash e.1) hsl
      · obtain ⟨l, _, rfl⟩ := List.mem_map.1 hf
        exact absurd heq (by show ¬ '=' ∈ "ocfl_layout.json".toList; decide)

theorem mem_mkeys_mget {fs : FS} {p : Str} : p ∈ mkeys fs ↔ mget fs p ≠ none := by
  rw [← Option.isSome_iff_ne_none, mget_isSome_iff]

/-- what is loaded, when all configurations are complete -/
theorem load_configs {make : Str → Option β → Option β} {a : InitArgs β} {m : ExtMgr β} (h : InitOk make a m)
    {T : CfgText β} {layouts : List (Ext β)}
    {folders empty : Bool} {fs : FS} (hnd : (mkeys fs).Nodup)
    (hd : mget fs ("0=".toList ++ (rootDecl ++ a.version)) = some (asBytes (rootDecl ++ a.version ++ "\n".toList)))
    (hk : ∀ p, mget fs p ≠ none → p ∈ (initTop a ++ initExt T a m layouts).map (·.1))
    (hc : ∀ e ∈ mgrFiles m, (mget fs (cfgPath e.1)).bind T.dec = some e.2) :
    loadStorageRoot make T empty ⟨fs, initFolders folders m⟩ = createExtensions make false (readDirs (storeExts folders m)) >>= fun r =>
      if r.2 then .error (.error "cannot create extension manager") else .ok (a.version, r.1) := by
  have hdirs : extDirs T ⟨fs, initFolders folders m⟩ = readDirs (storeExts folders m) := by
    refine extDirs_eq (storeExts_nodup folders) ?_ ?_
    · intro n
      rw [mem_extFolders, storeExts_keys h]
      constructor
      · rintro (h1 | ⟨p, hp, h1⟩)
        · exact initFolders_sub h h1
        · exact initExt_folder h (hk p (mem_mkeys_mget.1 hp)) h1
      · intro hn
        obtain ⟨e, he, rfl⟩ := List.mem_map.1 hn
        right
        refine ⟨cfgPath e.1, mem_mkeys_mget.2 ?_, extFolderOf_cfg (mgrFiles_noSlash h e he)⟩
        intro h1
        have := hc e he
        rw [h1] at this; cases this
    · intro n v hv
      obtain ⟨c, h1, rfl⟩ := storeExts_mem h folders hv
      exact hc _ h1
  have hver : getVersion rootDecl (topFiles fs) = .version a.version := by
    have D := init_declared h hd hk
    obtain ⟨h1, _, _⟩ := D.quiet hnd
    unfold loadRootFnd at h1
    cases hg : getVersion rootDecl (topFiles fs) with
    | version v =>
      obtain ⟨e, he, _⟩ := getVersion_version hg
      have hmem : ((⟨"0=".toList ++ (rootDecl ++ a.version), false, some (bytesStr (asBytes (rootDecl ++ a.version ++ "\n".toList)))⟩ :
          DirEnt), a.version) ∈ declFiles rootDecl (topFiles fs) :=
        mem_declFiles.2 ⟨mem_topFiles.2 ⟨_, _, mem_of_mget hd, h.version_slash, rfl⟩, rfl,
          declFind_exact (supportedRoot_num h.supported)⟩
      rw [he] at hmem
      have := congrArg Prod.snd (List.mem_singleton.1 hmem)
      simp only at this
      rw [this]
    | none => rw [hg] at h1; simp at h1
    | multiple => rw [hg] at h1; cases h1
    | invalid _ => rw [hg] at h1; cases h1
    | unreadable => rw [hg] at h1; cases h1
  have hne : extDirs T ⟨fs, initFolders folders m⟩ ≠ [] := by
    rw [hdirs]
    intro h1
    have h2 : nmManager ∈ mkeys (storeExts folders m) := by
      rw [storeExts_keys h]
      unfold mgrFiles
      rw [if_pos h.rules.symm]
      simp
    have h3 := (sortBy_perm (fun a b : Str × Option (ExtCfg β) => strLe a.1 b.1) (storeExts folders m)).length_eq
    unfold readDirs at h1
    rw [h1] at h3
    have h4 : storeExts folders m = [] := List.length_eq_zero_iff.1 h3.symm
    rw [h4] at h2
    cases h2
  unfold loadStorageRoot
  simp only [hver, h.supported, if_true]
  rw [if_neg (fun h1 => hne h1.1), hdirs]

/-- loading, when all configurations are complete -/
theorem load_complete {make : Str → Option β → Option β} {back : Str → β → β} {a : InitArgs β} {m : ExtMgr β} (h : InitOk make a m)
    (hb : ∀ n s, Ext.other n s ∈ m.exts → make n (some s) = some (back n s)) {T : CfgText β} {layouts : List (Ext β)}
    {folders empty : Bool} {fs : FS} (hnd : (mkeys fs).Nodup)
    (hd : mget fs ("0=".toList ++ (rootDecl ++ a.version)) = some (asBytes (rootDecl ++ a.version ++ "\n".toList)))
    (hk : ∀ p, mget fs p ≠ none → p ∈ (initTop a ++ initExt T a m layouts).map (·.1))
    (hc : ∀ e ∈ mgrFiles m, (mget fs (cfgPath e.1)).bind T.dec = some e.2) :
    loadStorageRoot make T empty ⟨fs, initFolders folders m⟩ = .ok (a.version, { m with exts := m.exts.map (Ext.back back) }) := by
  rw [load_configs h hnd hd hk hc, reload_back h.exts hb h.initial h.rules]
  rfl

/-- the configuration loaded from folders that carry the names of their extensions -/
theorem initOk_of {make : Str → Option β → Option β} {report : Bool} {src : List (Str × Option (ExtCfg β))} {m : ExtMgr β}
    {a : InitArgs β} (hv : supportedRoot a.version = true) (hdocs : ∀ d ∈ a.docs, '/' ∉ d.1 ∧ '=' ∉ d.1)
    (hsl : ∀ n r s, make n r = some s → '/' ∉ n) (ho : OwnFolders src) (hn : (src.map (·.1)).Nodup)
    (hs : (src.map (·.1)).Pairwise (fun a b => strLe a b = true)) (h : createExtensions make report src = .ok (m, false))
    (hr : m.sort ≠ [] ∨ m.exclusion ≠ []) : InitOk make a m := by
  obtain ⟨hg, hi, _⟩ := created_own ho hn hs h
  refine ⟨hv, hdocs, hg, ?_, hi hr, hr⟩
  intro e he
  obtain ⟨n, s, rfl, _, _, r, h1⟩ := hg.others e he
  exact hsl n r s h1

theorem first_part {n k r r' : Str} (hn : '/' ∉ n) (hk : '/' ∉ k) (h : n ++ '/' :: r = k ++ '/' :: r') : n = k := by
  induction n generalizing k with
  | nil =>
    cases k with
    | nil => rfl
    | cons c k => cases h; exact absurd List.mem_cons_self hk
  | cons c n ih =>
    cases k with
    | nil => cases h; exact absurd List.mem_cons_self hn
    | cons c' k =>
      have h1 : c = c' := (List.cons.inj h).1
      rw [h1, ih (fun h => hn (List.mem_cons_of_mem _ h)) (fun h => hk (List.mem_cons_of_mem _ h)) (List.cons.inj h).2]

/-- `init` makes no folder but `extensions` -/
theorem init_folder {make : Str → Option β → Option β} {a : InitArgs β} {m : ExtMgr β} (h : InitOk make a m) {T : CfgText β}
    {layouts : List (Ext β)} {n f : Str} {q : List Str} (hp : folderPath ((n :: q) ++ [f]) ∈ (initTop a ++ initExt T a m layouts).map (·.1))
    (hn : '/' ∉ n) : n = "extensions".toList := by
  have e : folderPath ((n :: q) ++ [f]) = n ++ '/' :: joinWith '/' (q ++ [f]) := joinWith_cons (by simp)
  rw [e] at hp
  have hsl : '/' ∈ n ++ '/' :: joinWith '/' (q ++ [f]) := by simp
  obtain ⟨x, hx, h1⟩ := List.mem_map.1 hp
  rcases List.mem_append.1 hx with hx | hx
  · exact absurd (h1 ▸ hsl) (initTop_noSlash h _ (List.mem_map.2 ⟨x, hx, rfl⟩))
  · rcases List.mem_append.1 hx with hx | hx
    · obtain ⟨y, _, rfl⟩ := List.mem_map.1 hx
      have h2 : "extensions".toList ++ '/' :: (y.1 ++ "/config.json".toList) = n ++ '/' :: joinWith '/' (q ++ [f]) := h1
      exact (first_part (by decide) hn h2).symm
    · obtain ⟨y, _, rfl⟩ := List.mem_map.1 hx
      have h2 : "ocfl_layout.json".toList = n ++ '/' :: joinWith '/' (q ++ [f]) := h1
      exact absurd (h2 ▸ hsl) (by decide)

/-- the declaration is no file of an extension -/
theorem init_decl_ne {make : Str → Option β → Option β} {a : InitArgs β} {m : ExtMgr β} (h : InitOk make a m) {T : CfgText β}
    {layouts : List (Ext β)} : "0=".toList ++ (rootDecl ++ a.version) ∉ (initExt T a m layouts).map (·.1) := by
  intro hp
  obtain ⟨f, hb, h0⟩ := List.mem_map.1 hp
  rcases List.mem_append.1 hb with hb | hb
  · obtain ⟨e, _, h1⟩ := List.mem_map.1 hb
    have h2 : cfgPath e.1 = "0=".toList ++ (rootDecl ++ a.version) := (congrArg Prod.fst h1).trans h0
    exact h.version_slash (h2 ▸ cfgPath_slash e.1)
  · obtain ⟨e, _, h1⟩ := List.mem_map.1 hb
    have h2 : "ocfl_layout.json".toList = "0=".toList ++ (rootDecl ++ a.version) := (congrArg Prod.fst h1).trans h0
    have h3 := congrArg List.head? h2
    have h4 : ("0=".toList ++ (rootDecl ++ a.version)).head? = some '0' := rfl
    rw [h4] at h3
    exact absurd h3 (by decide)

/-! ## C132 -/

/-- **C132, in full**: the storage root `init` makes in an empty folder from configurations that were loaded without error can
be opened, has the version asked for, and the same extensions. -/
def C132_full : Prop := ∀ (β : Type) (make : Str → Option β → Option β) (T : CfgText β) (report folders empty : Bool)
  (src : List (Str × Option (ExtCfg β))) (m : ExtMgr β) (a : InitArgs β) (layouts : List (Ext β)) (s : RootDisk),
  Keeps make → (∀ n r s, make n r = some s → '/' ∉ n) → (src.map (·.1)).Nodup →
  (src.map (·.1)).Pairwise (fun a b => strLe a b = true) → createExtensions make report src = .ok (m, false) →
  (∀ e ∈ mgrFiles m, T.dec (T.enc e.2) = some e.2) → (∀ d ∈ a.docs, '/' ∉ d.1 ∧ '=' ∉ d.1) →
  initRoot T folders a m layouts ⟨[], []⟩ = (s, none) →
  ∃ m', loadStorageRoot make T empty s = .ok (a.version, m') ∧ SameExts m m'

/-- **C132**: where something is already, `init` changes nothing and reports an error. -/
theorem C132_refused (T : CfgText β) (folders : Bool) (a : InitArgs β) (m : ExtMgr β) (layouts : List (Ext β)) (s : RootDisk)
    (h : s.fs ≠ [] ∨ s.made ≠ []) : ∃ e, initRoot T folders a m layouts s = (s, some e) := by
  unfold initRoot
  split
  · rw [if_neg (fun h1 => h.elim (fun h2 => h2 h1.1) (fun h2 => h2 h1.2))]
    exact ⟨_, rfl⟩
  · exact ⟨_, rfl⟩

theorem init_state {make : Str → Option β → Option β} {a : InitArgs β} {m : ExtMgr β} (h : InitOk make a m) {T : CfgText β}
    {layouts : List (Ext β)} (hc : ∀ e ∈ mgrFiles m, T.dec (T.enc e.2) = some e.2) {fs : FS}
    (hfs : fs = applyOps [] (writeAll (initTop a ++ initExt T a m layouts))) :
    (mkeys fs).Nodup ∧
    mget fs ("0=".toList ++ (rootDecl ++ a.version)) = some (asBytes (rootDecl ++ a.version ++ "\n".toList)) ∧
    (∀ p, mget fs p ≠ none → p ∈ (initTop a ++ initExt T a m layouts).map (·.1)) ∧
    ∀ e ∈ mgrFiles m, (mget fs (cfgPath e.1)).bind T.dec = some e.2 := by
  subst hfs
  refine ⟨applyOps_nodup (fs := []) (by simp [mkeys]) _, ?_, ?_, ?_⟩
  · refine mget_writeAll (List.mem_append_left _ List.mem_cons_self) ?_
    intro b hb
    rcases List.mem_append.1 hb with hb | hb
    · rcases List.mem_cons.1 hb with hb | hb
      · cases hb; rfl
      · exact absurd (by show '=' ∈ '0' :: '=' :: (rootDecl ++ a.version); simp) (h.docs _ hb).2
    · exact absurd (List.mem_map.2 ⟨_, hb, rfl⟩) (init_decl_ne h)
  · intro p hp
    rcases mget_applyOps_some hp with h1 | ⟨op, hop, rfl⟩
    · exact absurd rfl h1
    · exact writeAll_path hop
  · intro e he
    obtain ⟨h1, h2, h3⟩ := initExt_unique h (T := T) (layouts := layouts) (n := e.1) (c := e.2) he
    rw [writeAll_append, applyOps_append, mget_writeAll h1 h2]
    exact hc e he

/-- **C132, the part that holds**: if every folder carries the name of its extension and the manager has rules.  Extensions whose
configuration is not written as it was (`back`, see C54) have another state afterwards; the others are the same.  Validation of
the new storage root finds nothing, and there is no object in it. -/
theorem C132_restart_partial {make : Str → Option β → Option β} {back : Str → β → β} {T : CfgText β} {report : Bool}
    {src : List (Str × Option (ExtCfg β))} {m : ExtMgr β} {a : InitArgs β} {layouts : List (Ext β)} {folders : Bool} {s : RootDisk}
    (hsl : ∀ n r s, make n r = some s → '/' ∉ n) (ho : OwnFolders src) (hn : (src.map (·.1)).Nodup)
    (hs : (src.map (·.1)).Pairwise (fun a b => strLe a b = true)) (h : createExtensions make report src = .ok (m, false))
    (hr : m.sort ≠ [] ∨ m.exclusion ≠ []) (hb : ∀ n s, Ext.other n s ∈ m.exts → make n (some s) = some (back n s))
    (hc : ∀ e ∈ mgrFiles m, T.dec (T.enc e.2) = some e.2) (hdocs : ∀ d ∈ a.docs, '/' ∉ d.1 ∧ '=' ∉ d.1)
    (hi : initRoot T folders a m layouts ⟨[], []⟩ = (s, none)) :
    (∀ empty, loadStorageRoot make T empty s = .ok (a.version, { m with exts := m.exts.map (Ext.back back) })) ∧
    (∀ (w : World) (env : Env) (plain : Bool) (blank : Inv) (t : FDir), TreeOf t s.fs →
      getObjectFolders t = [] ∧ validateRoot w env plain blank s.fs t = .ok []) := by
  unfold initRoot at hi
  split at hi
  · rename_i hv
    rw [if_pos ⟨rfl, rfl⟩] at hi
    have hok := initOk_of hv hdocs hsl ho hn hs h hr
    obtain ⟨h1, h2, h3, h4⟩ := init_state hok (layouts := layouts) hc rfl
    cases hi
    refine ⟨fun empty => load_complete hok hb h1 h2 h3 h4, ?_⟩
    intro w env plain blank t ht
    have hnone : getObjectFolders t = [] := by
      by_contra hne
      obtain ⟨p, hp⟩ := List.exists_mem_of_ne_nil _ hne
      obtain ⟨n, sub, q, x, rfl, hd, hne, _, hre, f, hf, _⟩ := mem_getObjectFolders hp
      have hreach : Reach t (n :: q) x := .step hd hre
      obtain ⟨hns, hfs⟩ := ht.names _ _ hreach
      have hall : ∀ c ∈ (n :: q) ++ [f], '/' ∉ c := by
        intro c hc
        rcases List.mem_append.1 hc with hc | hc
        · exact (hns c hc).1
        · rw [List.mem_singleton.1 hc]; exact (hfs f hf).1
      obtain ⟨b, hb⟩ := (ht.files (n :: q) f hall).1 ⟨x, hreach, hf⟩
      have hk := h3 _ (by rw [hb]; simp)
      exact hne (init_folder hok hk (hns n List.mem_cons_self).1)
    refine ⟨hnone, ?_⟩
    obtain ⟨h5, h6, _⟩ := (init_declared hok h2 h3).quiet h1
    unfold validateRoot
    rw [h5, res_bind_ok, hnone, h6]
    rfl
  · cases hi

/-- a codec for given configurations: each is written as one byte -/
def listText (l : List (ExtCfg Layout)) : CfgText Layout where
  enc c := [UInt8.ofNat (l.idxOf c)]
  dec b := match b with
    | [x] => l[x.toNat]?
    | _ => none

def initArgs11 : InitArgs Layout := ⟨"1.1".toList, [("ocfl_spec.md".toList, [1, 2])], fun _ => [3]⟩

theorem sciMake_slash : ∀ n r s, sciMake n r = some s → '/' ∉ n := by
  intro n r s h
  unfold sciMake at h
  split at h
  · rename_i hn
    have : ∀ k ∈ [nmFlatDirect, nmFlatOmit, nmDirectClean, nmPathDirect], '/' ∉ k := by decide
    exact this n hn
  · cases h

def defMgr : ExtMgr Layout := ⟨sciSort, sciExcl, sciLayouts, (nmInitial, nmManager)⟩

def sciMgr : ExtMgr Layout := ⟨sciSort, sciExcl, sciLayouts, (nmManager, nmManager)⟩

theorem defSrc_created : createExtensions sciMake false defSrc = .ok (defMgr, false) := by decide

theorem defSrc_own : OwnFolders defSrc := by
  intro f c hc
  have : ∀ e ∈ defSrc, e.2.all (fun c => decide (c.name = e.1)) = true := by decide
  simpa using this _ hc

def defText : CfgText Layout := listText ((mgrFiles defMgr).map (·.2))

def sciText : CfgText Layout := listText ((mgrFiles sciMgr).map (·.2))

theorem defText_codec : ∀ e ∈ mgrFiles defMgr, defText.dec (defText.enc e.2) = some e.2 := by decide

theorem sciText_codec : ∀ e ∈ mgrFiles sciMgr, sciText.dec (sciText.enc e.2) = some e.2 := by decide

/-- the default configuration meets the hypotheses -/
example (folders empty : Bool) : ∃ s, initRoot defText folders initArgs11 defMgr [] ⟨[], []⟩ = (s, none) ∧
    loadStorageRoot sciMake defText empty s = .ok ("1.1".toList, defMgr) := by
  refine ⟨_, rfl, ?_⟩
  have h := (C132_restart_partial (back := fun _ s => s) (layouts := []) (folders := folders) (a := initArgs11) sciMake_slash defSrc_own
    (by decide) (by decide) defSrc_created (Or.inl (by decide)) ?_ defText_codec (by decide) rfl).1 empty
  · rw [h]
    rfl
  · intro n s hs
    have : ∀ e ∈ defMgr.exts, (match e with | .other n s => decide (sciMake n (some s) = some s) | _ => true) = true := by decide
    simpa using this _ hs

set_option maxRecDepth 20000 in
/-- **C132 is violated** by configurations that come with the tool: the storage root made with them has no rules when it is
opened again (see C96). -/
theorem C132_full_fails : ¬ C132_full := by
  intro hf
  obtain ⟨m', h1, h2, _⟩ := hf Layout sciMake sciText false true true sciSrc sciMgr initArgs11 [] _ sciMake_keeps sciMake_slash
    (by decide) (by decide) (sciSrc_created false) sciText_codec (by decide) rfl
  have h3 : loadStorageRoot sciMake sciText true (initRoot sciText true initArgs11 sciMgr [] ⟨[], []⟩).1 =
      .ok ("1.1".toList, ⟨[], [], sciLayouts, (nmManager, nmManager)⟩) := by decide
  have h4 := h3.symm.trans h1
  cases h4
  exact absurd h2 (by decide)

/-! ## C133 -/

/-- **C133, in full**: what an interrupted `init` leaves cannot be opened, or it is opened as the storage root asked for. -/
def C133_full : Prop := ∀ (β : Type) (make : Str → Option β → Option β) (T : CfgText β) (report folders empty : Bool)
  (src : List (Str × Option (ExtCfg β))) (m : ExtMgr β) (a : InitArgs β) (layouts : List (Ext β)) (s : RootDisk) (v : Str)
  (m' : ExtMgr β), Keeps make → (∀ n r s, make n r = some s → '/' ∉ n) → OwnFolders src → (src.map (·.1)).Nodup →
  (src.map (·.1)).Pairwise (fun a b => strLe a b = true) → createExtensions make report src = .ok (m, false) →
  (m.sort ≠ [] ∨ m.exclusion ≠ []) → supportedRoot a.version = true →
  (∀ e ∈ mgrFiles m, T.dec (T.enc e.2) = some e.2) →
  (∀ e ∈ mgrFiles m, ∀ b r c, T.enc e.2 = b ++ r → T.dec b = some c → c = e.2) →
  (∀ d ∈ a.docs, '/' ∉ d.1 ∧ '=' ∉ d.1) → InitCrash T folders a m layouts s →
  loadStorageRoot make T empty s = .ok (v, m') → v = a.version ∧ SameExts m m'

/-- what is loaded with nobody to report to: every folder has a configuration -/
theorem load_all {make : Str → Option β → Option β} {T : CfgText β} {empty : Bool} {s : RootDisk} {v : Str} {m' : ExtMgr β}
    (h : loadStorageRoot make T empty s = .ok (v, m')) :
    createExtensions make false (extDirs T s) = .ok (m', false) ∧ ∀ n ∈ extFolders s, (mget s.fs (cfgPath n)).bind T.dec ≠ none := by
  have key : createExtensions make false (extDirs T s) = .ok (m', false) := by
    have aux : ∀ x : Res (Str × ExtMgr β), (x = .ok (v, m')) → ∀ u, x = (if extDirs T s = [] ∧ empty = false then
        .error (.error "cannot read folder storageroot")
        else createExtensions make false (extDirs T s) >>= fun r =>
          if r.2 then .error (.error "cannot create extension manager") else .ok (u, r.1)) →
        createExtensions make false (extDirs T s) = .ok (m', false) := by
      intro x hx u hu
      rw [hx] at hu
      split at hu
      · cases hu
      · obtain ⟨⟨q, b⟩, h1, h2⟩ := res_bind_eq_ok.1 hu.symm
        cases b
        · cases h2; exact h1
        · cases h2
    unfold loadStorageRoot at h
    simp only at h
    split at h
    · split at h
      · exact aux _ h _ rfl
      · cases h
    · exact aux _ h _ rfl
    · cases h
  refine ⟨key, ?_⟩
  intro n hn hnone
  have hmem : (n, (none : Option (ExtCfg β))) ∈ extDirs T s := by
    unfold extDirs
    refine List.mem_map.2 ⟨n, (sortStr_perm _).mem_iff.2 hn, ?_⟩
    rw [hnone]
  unfold createExtensions at key
  obtain ⟨l, h1, _⟩ := res_bind_eq_ok.1 key
  have : ∀ D : List (Str × Option (ExtCfg β)), (n, none) ∈ D → ∀ l, scanFolders make false D ≠ .ok l := by
    intro D
    induction D with
    | nil => intro h; cases h
    | cons e D ih =>
      intro hD l hl
      unfold scanFolders at hl
      split at hl
      · cases hl
      · rename_i x hx
        obtain ⟨r, h2, _⟩ := res_bind_eq_ok.1 hl
        rcases List.mem_cons.1 hD with h3 | h3
        · rw [← h3] at hx; cases hx
        · exact ih h3 r h2
  exact this _ hmem l h1

theorem load_none {make : Str → Option β → Option β} {T : CfgText β} {empty : Bool} {s : RootDisk} {v : Str} {m' : ExtMgr β}
    (h : loadStorageRoot make T empty s = .ok (v, m')) (hn : extFolders s = []) : m'.exts = [] ∧ empty = true := by
  have h1 := (load_all h).1
  have hd : extDirs T s = [] := by unfold extDirs; rw [hn]; rfl
  refine ⟨?_, ?_⟩
  · rw [hd] at h1
    cases h1
    rfl
  · by_contra he
    simp only [Bool.not_eq_true] at he
    unfold loadStorageRoot at h
    simp only [hd, he, and_self, if_true] at h
    split at h
    · split at h <;> cases h
    · cases h
    · cases h

/-- **C133, the part that holds**: on a file system with folders.  Either the storage root is the one asked for, or it has no
extensions at all: `init` was interrupted before it made the first folder for one. -/
theorem C133_interrupted_partial {make : Str → Option β → Option β} {back : Str → β → β} {T : CfgText β} {report empty : Bool}
    {src : List (Str × Option (ExtCfg β))} {m m' : ExtMgr β} {a : InitArgs β} {layouts : List (Ext β)} {s : RootDisk} {v : Str}
    (hsl : ∀ n r s, make n r = some s → '/' ∉ n) (ho : OwnFolders src) (hn : (src.map (·.1)).Nodup)
    (hs : (src.map (·.1)).Pairwise (fun a b => strLe a b = true)) (h : createExtensions make report src = .ok (m, false))
    (hr : m.sort ≠ [] ∨ m.exclusion ≠ []) (hb : ∀ n s, Ext.other n s ∈ m.exts → make n (some s) = some (back n s))
    (hv : supportedRoot a.version = true)
    (hc : ∀ e ∈ mgrFiles m, ∀ b r c, T.enc e.2 = b ++ r → T.dec b = some c → c = e.2)
    (hdocs : ∀ d ∈ a.docs, '/' ∉ d.1 ∧ '=' ∉ d.1) (hi : InitCrash T true a m layouts s)
    (hl : loadStorageRoot make T empty s = .ok (v, m')) :
    (v = a.version ∧ m' = { m with exts := m.exts.map (Ext.back back) }) ∨
    (m'.exts = [] ∧ extFolders s = [] ∧ empty = true) := by
  have hok := initOk_of hv hdocs hsl ho hn hs h hr
  have htop : ∀ t, (∀ op ∈ t, op.path ∈ (initTop a).map (·.1)) → ∀ p ∈ mkeys (applyOps [] t), extFolderOf p = none := by
    intro t ht p hp
    rcases mget_applyOps_some (mem_mkeys_mget.1 hp) with h1 | ⟨op, hop, rfl⟩
    · exact absurd rfl h1
    · exact extFolderOf_plain (initTop_noSlash hok _ (ht op hop))
  cases hi with
  | @top t hp =>
    right
    have hf : extFolders ⟨applyOps [] t, []⟩ = [] := by
      refine List.eq_nil_iff_forall_not_mem.2 (fun n hn => ?_)
      rcases mem_extFolders.1 hn with h1 | ⟨p, h1, h2⟩
      · cases h1
      · rw [htop _ (fun op hop => ?_) p h1] at h2
        · cases h2
        · obtain ⟨op', h3, h4⟩ := hp.path hop
          exact h4 ▸ writeAll_path h3
    exact ⟨(load_none hl hf).1, hf, (load_none hl hf).2⟩
  | folder k =>
    right
    have hf : extFolders ⟨applyOps [] (writeAll (initTop a)), (initFolders true m).take k⟩ = [] := by
      refine List.eq_nil_iff_forall_not_mem.2 (fun n hn => ?_)
      refine (load_all hl).2 n hn ?_
      have : mget (applyOps [] (writeAll (initTop a))) (cfgPath n) = none := by
        by_contra hne
        rcases mget_applyOps_some hne with h1 | ⟨op, hop, h1⟩
        · exact h1 rfl
        · exact initTop_noSlash hok _ (writeAll_path hop) (h1 ▸ cfgPath_slash n)
      show Option.bind (mget (applyOps [] (writeAll (initTop a))) (cfgPath n)) T.dec = none
      rw [this]; rfl
    exact ⟨(load_none hl hf).1, hf, (load_none hl hf).2⟩
  | @ext t hp =>
    left
    have hk : ∀ p, mget (applyOps [] (writeAll (initTop a) ++ t)) p ≠ none → p ∈ (initTop a ++ initExt T a m layouts).map (·.1) := by
      intro p hne
      rcases mget_applyOps_some hne with h1 | ⟨op, hop, rfl⟩
      · exact absurd rfl h1
      · rw [List.map_append]
        rcases List.mem_append.1 hop with h1 | h1
        · exact List.mem_append_left _ (writeAll_path h1)
        · obtain ⟨op', h3, h4⟩ := hp.path h1
          exact List.mem_append_right _ (h4 ▸ writeAll_path h3)
    have hd : mget (applyOps [] (writeAll (initTop a) ++ t)) ("0=".toList ++ (rootDecl ++ a.version)) =
        some (asBytes (rootDecl ++ a.version ++ "\n".toList)) := by
      rw [applyOps_append, mget_applyOps_ne]
      · refine mget_writeAll List.mem_cons_self ?_
        intro b hb
        rcases List.mem_cons.1 hb with hb | hb
        · cases hb; rfl
        · exact absurd (by show '=' ∈ '0' :: '=' :: (rootDecl ++ a.version); simp) (hok.docs _ hb).2
      · intro op hop he
        obtain ⟨op', h3, h4⟩ := hp.path hop
        exact init_decl_ne hok (T := T) (layouts := layouts) (he ▸ h4 ▸ writeAll_path h3)
    have hcfg : ∀ e ∈ mgrFiles m, (mget (applyOps [] (writeAll (initTop a) ++ t)) (cfgPath e.1)).bind T.dec = some e.2 := by
      intro e he
      have hmem : e.1 ∈ extFolders ⟨applyOps [] (writeAll (initTop a) ++ t), initFolders true m⟩ :=
        mem_extFolders.2 (Or.inl ((initFolders_mem hok).2 (List.mem_map.2 ⟨e, he, rfl⟩)))
      have hne := (load_all hl).2 _ hmem
      obtain ⟨c, hcc⟩ := Option.ne_none_iff_exists'.1 hne
      obtain ⟨b, hb1, hb2⟩ := Option.bind_eq_some_iff.1 hcc
      obtain ⟨h1, h2, h3⟩ := initExt_unique hok (T := T) (layouts := layouts) (n := e.1) (c := e.2) he
      have hb1' : mget (applyOps (applyOps [] (writeAll (initTop a))) t) (cfgPath e.1) = some b := by
        rw [← applyOps_append]; exact hb1
      obtain ⟨r, hr⟩ := crash_writeAll hp h1 h2 (Or.inl (by rw [mget_writeAll_ne h3]; rfl)) hb1'
      rw [← hc e he b r c hr hb2]
      exact hcc
    have := load_complete hok hb (empty := empty) (folders := true) (applyOps_nodup (fs := []) (by simp [mkeys]) _) hd hk hcfg
    rw [this] at hl
    cases hl
    exact ⟨rfl, rfl⟩

theorem defText_torn : ∀ e ∈ mgrFiles defMgr, ∀ b r c, defText.enc e.2 = b ++ r → defText.dec b = some c → c = e.2 := by
  intro e he b r c h1 h2
  match b, h1, h2 with
  | [], _, h2 => cases h2
  | [x], h1, h2 =>
    have h3 : defText.enc e.2 = [x] := by
      have h4 := congrArg List.length h1
      have h5 : (defText.enc e.2).length = 1 := rfl
      rw [h5, List.length_append, List.length_singleton] at h4
      have : r = [] := List.eq_nil_of_length_eq_zero (by omega)
      rw [h1, this]; rfl
    rw [← h3, defText_codec e he] at h2
    exact (Option.some.inj h2).symm
  | _ :: _ :: _, _, h2 => cases h2

/-- interrupted after all configurations: the default configuration meets the hypotheses -/
example : ∃ s, InitCrash defText true initArgs11 defMgr [.other nmDirectClean .flatDirect] s ∧
    mget s.fs "ocfl_layout.json".toList = none ∧
    loadStorageRoot sciMake defText false s = .ok ("1.1".toList, defMgr) := by
  refine ⟨_, .ext (t := writeAll ((mgrFiles defMgr).map (fun e => (cfgPath e.1, defText.enc e.2)))) ?_, by decide, by decide⟩
  unfold initExt
  rw [writeAll_append]
  simpa using CrashPrefix.append_left (.stop _) _

/-- **C133 is violated**: where a folder `extensions` without anything in it can be read, an interruption before the first
folder leaves a storage root without layouts: every object is then put in a folder named as its identifier. -/
theorem C133_full_fails : ¬ C133_full := by
  intro hf
  obtain ⟨_, h1, _⟩ := hf Layout sciMake defText false true true defSrc defMgr initArgs11 [] _ "1.1".toList
    ⟨[], [], [], (nmManager, nmManager)⟩ sciMake_keeps sciMake_slash defSrc_own (by decide) (by decide) defSrc_created
    (Or.inl (by decide)) (by decide) defText_codec defText_torn (by decide) (.folder 0) (by decide)
  exact absurd h1 (by decide)

/-- **C133 is violated** also in stores without folders (S3, ZIP): an interruption after the first configuration leaves a
storage root with that layout alone.  The object `urn:a` is put in another folder than with the configuration asked for. -/
theorem C133_full_fails_part (hashes : Str → Option (Str → Str)) : ∃ (s : RootDisk) (m' : ExtMgr Layout),
    InitCrash defText false initArgs11 defMgr [] s ∧
    loadStorageRoot sciMake defText false s = .ok ("1.1".toList, m') ∧
    ∀ r r', Organized Ext.name (mget defMgr.exclusion hookRoot) (mget defMgr.sort hookRoot) defMgr.exts r →
      Organized Ext.name (mget m'.exclusion hookRoot) (mget m'.sort hookRoot) m'.exts r' →
      rootPath (layoutsOf hashes r) "urn:a".toList = ("urn_a".toList, false) ∧
      rootPath (layoutsOf hashes r') "urn:a".toList = ("a".toList, false) := by
  refine ⟨_, ⟨[], [], [.other nmFlatOmit (.flatOmit ":".toList)], (nmManager, nmManager)⟩,
    .ext (t := writeAll [(cfgPath nmFlatOmit, defText.enc (Ext.other nmFlatOmit (Layout.flatOmit ":".toList)).cfg)]) ?_, by decide, ?_⟩
  · have : initExt defText initArgs11 defMgr [] =
        [(cfgPath nmFlatOmit, defText.enc (Ext.other nmFlatOmit (Layout.flatOmit ":".toList)).cfg)] ++
          (initExt defText initArgs11 defMgr []).drop 1 := rfl
    rw [this, writeAll_append]
    simpa using CrashPrefix.append_left (.stop _) _
  · intro r r' hr hr'
    have h' : r' = [.other nmFlatOmit (.flatOmit ":".toList)] := by
      obtain ⟨m, h1, h2⟩ := hr'
      exact h2.trans h1
    obtain ⟨m, m2, e1, e3, h1⟩ := C96_full_fails_layout hashes
    have e2 : m = sciMgr := by
      have := (sciSrc_created false).symm.trans e1
      cases this; rfl
    subst h' e2
    have e4 : m2 = ⟨[], [], sciLayouts, (nmManager, nmManager)⟩ := by
      have := (sciSrc_reloaded false false).symm.trans e3
      cases this; rfl
    subst e4
    exact ⟨(h1 r sciLayouts hr ⟨sciLayouts, rfl, rfl⟩).1, rfl⟩

end Gocfl
