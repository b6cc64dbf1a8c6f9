import Verif.Model.Create
import Verif.Props.RootInit
import Verif.Props.RoundTrip
import Verif.Props.Retry
import Verif.Props.Settings

/-! # C151–C154: the storage root after its commands, the data of a version, failed and successful `create` -/

namespace Gocfl

variable {β : Type}

/-! ## Files outside of `extensions` -/

theorem topFiles_mset {fs : FS} {p : Str} {b : Bytes} (h : '/' ∈ p) : topFiles (mset fs p b) = topFiles fs := by
  induction fs with
  | nil => unfold topFiles; simp [mset, h]
  | cons e fs ih =>
    obtain ⟨k, v⟩ := e
    unfold mset
    split
    · rename_i hk
      subst hk
      unfold topFiles
      simp [h]
    · unfold topFiles at ih ⊢
      rw [List.filterMap_cons, List.filterMap_cons, ih]

theorem extKeys_mset {fs : FS} {p : Str} {b : Bytes} (h : extFolderOf p = none) :
    (mkeys (mset fs p b)).filterMap extFolderOf = (mkeys fs).filterMap extFolderOf := by
  rw [mkeys_mset]
  split
  · rfl
  · rw [List.filterMap_append]
    simp [h]

theorem apply_eq_mset (fs : FS) (op : FsOp) : ∃ b, op.apply fs = mset fs op.path b := by
  cases op <;> exact ⟨_, rfl⟩

theorem topFiles_applyOps {fs : FS} {t : List FsOp} (h : ∀ op ∈ t, '/' ∈ op.path) : topFiles (applyOps fs t) = topFiles fs := by
  induction t generalizing fs with
  | nil => rfl
  | cons op t ih =>
    rw [applyOps_cons, ih (fun o ho => h o (List.mem_cons_of_mem _ ho))]
    obtain ⟨b, hb⟩ := apply_eq_mset fs op
    rw [hb]
    exact topFiles_mset (h op (List.mem_cons_self ..))

theorem extKeys_applyOps {fs : FS} {t : List FsOp} (h : ∀ op ∈ t, extFolderOf op.path = none) :
    (mkeys (applyOps fs t)).filterMap extFolderOf = (mkeys fs).filterMap extFolderOf := by
  induction t generalizing fs with
  | nil => rfl
  | cons op t ih =>
    rw [applyOps_cons, ih (fun o ho => h o (List.mem_cons_of_mem _ ho))]
    obtain ⟨b, hb⟩ := apply_eq_mset fs op
    rw [hb]
    exact extKeys_mset (h op (List.mem_cons_self ..))

theorem extFolderOf_cfg_ne (n : Str) : extFolderOf (cfgPath n) ≠ none := by
  unfold extFolderOf cfgPath
  rw [if_pos (List.isPrefixOf_iff_prefix.2 ⟨_, rfl⟩)]
  have e : ("extensions/".toList ++ (n ++ "/config.json".toList)).drop "extensions/".toList.length = n ++ "/config.json".toList := by
    rw [List.drop_append_of_le_length (Nat.le_refl _), List.drop_length, List.nil_append]
  simp only [e]
  rw [if_pos (by rw [List.mem_append]; right; decide)]
  simp

theorem extDirs_applyOps (T : CfgText β) {s : RootDisk} {t : List FsOp} (h : ∀ op ∈ t, extFolderOf op.path = none) :
    extDirs T ⟨applyOps s.fs t, s.made⟩ = extDirs T s := by
  have hf : extFolders ⟨applyOps s.fs t, s.made⟩ = extFolders s := by
    unfold extFolders
    rw [extKeys_applyOps h]
  unfold extDirs
  rw [hf]
  apply List.map_congr_left
  intro n _
  have : mget (applyOps s.fs t) (cfgPath n) = mget s.fs (cfgPath n) :=
    mget_applyOps_ne (fun op hop he => extFolderOf_cfg_ne n (by rw [← he]; exact h op hop))
  rw [this]

/-- Changes inside of folders other than those of extensions do not change what is loaded with the storage root. -/
theorem loadStorageRoot_applyOps (make : Str → Option β → Option β) (T : CfgText β) (empty : Bool) {s : RootDisk} {t : List FsOp}
    (h : ∀ op ∈ t, '/' ∈ op.path) (h' : ∀ op ∈ t, extFolderOf op.path = none) :
    loadStorageRoot make T empty ⟨applyOps s.fs t, s.made⟩ = loadStorageRoot make T empty s := by
  unfold loadStorageRoot
  rw [extDirs_applyOps T h', show topFiles (⟨applyOps s.fs t, s.made⟩ : RootDisk).fs = topFiles s.fs from topFiles_applyOps h]

/-- every change of `add`, `update` or `create` to an object lies below the folder of the id -/
theorem byPath_under {w : World} {env : Env} {plain : Bool} {blank : Inv} {ls : List (Str → Res Str)} {a : CreateArgs} {fs : FS}
    {id : Str} {s : Session} {op : FsOp} (h : op ∈ (addObjectByPath w env plain blank ls a fs id s).1) :
    ∃ p, op.path = under (rootPath ls id).1 p := by
  have lifted : ∀ {l : List FsOp}, op ∈ l.map (FsOp.lift (rootPath ls id).1) → ∃ p, op.path = under (rootPath ls id).1 p := by
    intro l hl
    obtain ⟨o, _, rfl⟩ := List.mem_map.1 hl
    exact ⟨o.path, lift_path _ _⟩
  unfold addObjectByPath at h
  split at h
  · cases h
  · split at h
    · cases h
    · exact lifted h
  · have hcr : ∀ {o}, o ∈ (createObject ls a fs id).1 → o ∈ (initObject a (subFS fs (rootPath ls id).1) id).1.map
        (FsOp.lift (rootPath ls id).1) := fun ho => ho
    split at h
    · exact lifted (hcr h)
    · rename_i folder inv hc
      obtain ⟨rfl, _, _, _⟩ := createObject_ok hc
      rcases List.mem_append.1 h with h | h
      · exact lifted (hcr h)
      · exact lifted h

/-! ## C151: the storage root can still be opened -/

/-- the folder lies in the storage root's own folder for extensions -/
def InExtensions (folder : Str) : Prop := folder = "extensions".toList ∨ ∃ r, folder = "extensions/".toList ++ r

theorem under_outside {folder : Str} (h : ¬ InExtensions folder) (p : Str) : extFolderOf (under folder p) = none := by
  unfold extFolderOf
  rw [if_neg]
  intro hp
  obtain ⟨t, ht⟩ := List.isPrefixOf_iff_prefix.1 hp
  apply h
  have e : "extensions/".toList = "extensions".toList ++ ['/'] := by decide
  unfold under at ht
  have h1 : ("extensions".toList ++ '/' :: t) = folder ++ '/' :: p := by rw [← ht, e]; simp
  rcases List.append_eq_append_iff.1 h1 with ⟨x, hx, hy⟩ | ⟨x, hx, hy⟩
  · cases x with
    | nil => left; rw [hx]; simp
    | cons c x =>
      right
      have : c = '/' := by
        simp only [List.cons_append, List.cons.injEq] at hy
        exact hy.1.symm
      subst this
      exact ⟨x, by rw [hx, e]; simp⟩
  · cases x with
    | nil => left; rw [hx]; simp
    | cons c x =>
      exfalso
      have : c = '/' := by
        simp only [List.cons_append, List.cons.injEq] at hy
        exact hy.1.symm
      subst this
      have : '/' ∈ "extensions".toList := by rw [hx]; simp
      exact absurd this (by decide)

/-- **C151, in full**: a storage root that can be opened can be opened after an object was added or updated, with the same version
and extensions. -/
def C151_full : Prop := ∀ (β : Type) (make : Str → Option β → Option β) (T : CfgText β) (empty : Bool) (w : World) (env : Env)
  (plain : Bool) (blank : Inv) (ls : List (Str → Res Str)) (a : CreateArgs) (r : RootDisk) (id : Str) (s : Session) (x : Str × ExtMgr β),
  loadStorageRoot make T empty r = .ok x → (addObjectByPath w env plain blank ls a r.fs id s).2 = none →
  loadStorageRoot make T empty ⟨applyOps r.fs (addObjectByPath w env plain blank ls a r.fs id s).1, r.made⟩ = .ok x

/-- **C151, the part that holds**: if the layout does not put the object into the folder `extensions`, whatever an `add` or
`update` did, also if it failed or was interrupted. -/
theorem C151_opens_partial (make : Str → Option β → Option β) (T : CfgText β) (empty : Bool) {w : World} {env : Env} {plain : Bool}
    {blank : Inv} {ls : List (Str → Res Str)} {a : CreateArgs} {r : RootDisk} {id : Str} {s : Session}
    (h : ¬ InExtensions (rootPath ls id).1) {t : List FsOp}
    (ht : CrashPrefix t (addObjectByPath w env plain blank ls a r.fs id s).1) :
    loadStorageRoot make T empty ⟨applyOps r.fs t, r.made⟩ = loadStorageRoot make T empty r := by
  have hp : ∀ op ∈ t, ∃ p, op.path = under (rootPath ls id).1 p := by
    intro op hop
    obtain ⟨op', h1, h2⟩ := ht.path hop
    obtain ⟨p, hp⟩ := byPath_under h1
    exact ⟨p, h2 ▸ hp⟩
  refine loadStorageRoot_applyOps make T empty ?_ ?_
  · intro op hop
    obtain ⟨p, hp⟩ := hp op hop
    rw [hp]; unfold under; simp
  · intro op hop
    obtain ⟨p, hp⟩ := hp op hop
    rw [hp]; exact under_outside h p

theorem extFolderOf_in (r p : Str) :
    extFolderOf (under ("extensions/".toList ++ r) p) = some (r.takeWhile (fun c => decide (c ≠ '/'))) := by
  unfold extFolderOf under
  rw [if_pos (List.isPrefixOf_iff_prefix.2 ⟨r ++ '/' :: p, by simp⟩)]
  have e : ("extensions/".toList ++ r ++ '/' :: p).drop "extensions/".toList.length = r ++ '/' :: p := by
    rw [List.append_assoc, List.drop_append_of_le_length (Nat.le_refl _), List.drop_length, List.nil_append]
  simp only [e]
  rw [if_pos (by simp)]
  congr 1
  induction r with
  | nil => simp
  | cons c r ih =>
    by_cases hc : c = '/'
    · subst hc; simp
    · have e' : "extensions/".toList ++ r ++ '/' :: p = "extensions/".toList ++ (r ++ '/' :: p) := by simp
      have ih := ih (by rw [e', List.drop_append_of_le_length (Nat.le_refl _), List.drop_length, List.nil_append])
      simp [hc] at ih ⊢
      exact ih

theorem takeWhile_noSlash (r : Str) : '/' ∉ r.takeWhile (fun c => decide (c ≠ '/')) := by
  intro h
  have := List.mem_takeWhile_imp h
  simp at this

/-- the files an `add` writes directly into the folder of the object do not include `config.json` -/
theorem session_config {w : World} {inv : Inv} {n : Nat} (h : WF inv n) (hc : ValidComp inv.contentDir) {s : Session}
    (hs : SafeNames w s) {op : FsOp} (hop : op ∈ (session w inv s).obj.trace) : op.path ≠ "config.json".toList := by
  have hnew : ∀ op ∈ (sessionOpen w inv s).obj.trace, op.path ≠ "config.json".toList := by
    intro op hop he
    have ht : topOf op.path = "config.json".toList := by rw [he, topOf_self (by decide)]
    rcases newPath_top hc (fun p a i hu hi => hs (p, a) hu i hi) (sessionOpen_trace h s op hop) with ⟨k, _, h2⟩ | h2
    · rw [h2] at ht
      obtain ⟨j, hj⟩ := verName_shape inv.paddingLength k
      rw [hj] at ht
      exact absurd (congrArg List.head? ht) (by show some 'v' ≠ some 'c'; decide)
    · rw [h2] at ht; exact absurd ht (by decide)
  unfold session at hop
  cases he : (sessionOpen w inv s).err with
  | some e => rw [andThen_some he] at hop; exact hnew op hop
  | none =>
    rw [andThen_none he] at hop
    rcases closeObj_cases w (sessionOpen w inv s).obj s.exts with ⟨h1, _⟩ | ⟨_, _, _, h1, _⟩ | ⟨_, _, f, _, h1⟩
    · rw [h1] at hop; exact hnew op hop
    · rw [h1] at hop; exact hnew op hop
    · rw [h1] at hop
      rcases List.mem_append.1 hop with hop | hop
      · exact hnew op hop
      · rcases List.mem_append.1 hop with hop | hop
        · rcases mem_rootWrites_path hop with h2 | h2
          · rw [h2]; decide
          · rw [h2]
            intro he
            exact absurd (congrArg List.head? he) (by
              unfold rootSidecarPath
              show some 'i' ≠ some 'c'
              decide)
        · obtain ⟨k, hk⟩ := mem_extWrites_path hop
          rw [hk]
          intro he
          exact absurd (congrArg List.head? he) (by
            unfold extPath
            show some 'e' ≠ some 'c'
            decide)

section
variable {w : World} {env : Env} {plain : Bool} {blank : Inv} {ls : List (Str → Res Str)} {a : CreateArgs} {r : RootDisk} {id : Str}
  {s : Session}

/-- no change of an `add` is to the `config.json` of the object's folder -/
theorem add_config (hf : objectExists ls r.fs id = .ok false) (hs : SafeNames w s)
    (hcd : a.contentDir ≠ ".".toList ∧ a.contentDir ≠ "..".toList ∧ '/' ∉ a.contentDir) {op : FsOp}
    (hop : op ∈ (addCmd w env plain blank ls a r.fs id s).1) :
    ∃ q, op.path = under (rootPath ls id).1 q ∧ q ≠ "config.json".toList := by
  obtain ⟨t, hu, ht⟩ := addCmd_free (w := w) (env := env) (plain := plain) (blank := blank) (a := a) (s := s) hf
  rw [hu] at hop
  obtain ⟨op', hop', rfl⟩ := List.mem_map.1 hop
  refine ⟨op'.path, lift_path _ _, ?_⟩
  rcases List.mem_append.1 hop' with hd | hd
  · have : op'.path = declName a.version := by
      rcases (by simpa [writeFile] using hd : op' = _ ∨ op' = _) with rfl | rfl <;> rfl
    rw [this]
    intro he
    exact absurd (congrArg List.head? he) (by show some '0' ≠ some 'c'; decide)
  · rcases ht with ⟨rfl, _⟩ | ⟨rfl, _⟩
    · cases hd
    · exact session_config (newInv_wf _ _ _ _ _) (newInv_cdir hcd) hs hd

/-- a path of the object is not the configuration of an extension -/
theorem under_cfg_ne {f q k : Str} (hk : '/' ∉ k) (hq : q ≠ "config.json".toList) :
    under ("extensions/".toList ++ f) q ≠ cfgPath k := by
  intro he
  unfold under cfgPath at he
  rw [List.append_assoc] at he
  have he := List.append_cancel_left he
  have e : "/config.json".toList = '/' :: "config.json".toList := by decide
  rw [e] at he
  rcases List.append_eq_append_iff.1 he with ⟨x, hx, hy⟩ | ⟨x, hx, hy⟩
  · cases x with
    | nil =>
      simp only [List.nil_append, List.cons.injEq, true_and] at hy
      exact hq hy
    | cons c x =>
      simp only [List.cons_append, List.cons.injEq] at hy
      apply hk
      rw [hx, ← hy.1]
      simp
  · cases x with
    | nil =>
      simp only [List.nil_append, List.cons.injEq, true_and] at hy
      exact hq hy.symm
    | cons c x =>
      simp only [List.cons_append, List.cons.injEq] at hy
      have : '/' ∈ "config.json".toList := by rw [hy.2]; simp
      exact absurd this (by decide)

/-- **C151, what else happens**: if the layout puts a new object into a folder below `extensions` that is not there yet, the
storage root can never be opened again, as soon as the first file is there: not by any command. -/
theorem C151_lost (make : Str → Option β → Option β) (T : CfgText β) (empty : Bool) {f : Str}
    (hf : objectExists ls r.fs id = .ok false) (hfo : (rootPath ls id).1 = "extensions/".toList ++ f)
    (hn : f.takeWhile (fun c => decide (c ≠ '/')) ∉ extFolders r) (hs : SafeNames w s)
    (hcd : a.contentDir ≠ ".".toList ∧ a.contentDir ≠ "..".toList ∧ '/' ∉ a.contentDir) {t : List FsOp}
    (ht : CrashPrefix t (addCmd w env plain blank ls a r.fs id s).1) (hne : t ≠ []) (x : Str × ExtMgr β) :
    loadStorageRoot make T empty ⟨applyOps r.fs t, r.made⟩ ≠ .ok x := by
  intro hload
  generalize hk : f.takeWhile (fun c => decide (c ≠ '/')) = k at hn
  have hks : '/' ∉ k := by rw [← hk]; exact takeWhile_noSlash f
  have hcfg : mget (applyOps r.fs t) (cfgPath k) = none := by
    rw [mget_applyOps_ne]
    · by_contra hm
      exact hn (mem_extFolders.2 (.inr ⟨_, mem_mkeys_mget.2 hm, extFolderOf_cfg hks⟩))
    · intro op hop he
      obtain ⟨op', h1, h2⟩ := ht.path hop
      obtain ⟨q, q1, q2⟩ := add_config hf hs hcd h1
      rw [hfo] at q1
      exact under_cfg_ne hks q2 (q1.symm.trans (h2.trans he))
  refine (load_all (v := x.1) (m' := x.2) hload).2 k ?_ (by rw [hcfg]; rfl)
  obtain ⟨u, hu, _⟩ := addCmd_free (w := w) (env := env) (plain := plain) (blank := blank) (a := a) (s := s) hf
  rw [hu] at ht
  have hhead : ∃ t', t = .create (under (rootPath ls id).1 (declName a.version)) :: t' := by
    unfold writeFile at ht
    simp only [List.cons_append, List.map_cons, FsOp.lift] at ht
    cases ht with
    | stop => exact absurd rfl hne
    | next op h => exact ⟨_, rfl⟩
  obtain ⟨t', rfl⟩ := hhead
  refine mem_extFolders.2 (.inr ⟨under (rootPath ls id).1 (declName a.version), ?_, ?_⟩)
  · apply mem_mkeys_mget.2
    rw [applyOps_cons]
    apply mget_applyOps_ne_none
    simp [FsOp.apply]
  · rw [hfo, extFolderOf_in, hk]

/-- **C151, exact** for a new object outside of the folder `extensions` itself: the storage root can be opened afterwards exactly
if its folder is not a new sub folder of `extensions`. -/
theorem C151_exact (make : Str → Option β → Option β) (T : CfgText β) (empty : Bool) {x : Str × ExtMgr β}
    (ho : loadStorageRoot make T empty r = .ok x) (hmade : ∀ k ∈ r.made, '/' ∉ k)
    (hf : objectExists ls r.fs id = .ok false) (hfo : (rootPath ls id).1 ≠ "extensions".toList) (hs : SafeNames w s)
    (hcd : a.contentDir ≠ ".".toList ∧ a.contentDir ≠ "..".toList ∧ '/' ∉ a.contentDir) :
    loadStorageRoot make T empty ⟨applyOps r.fs (addCmd w env plain blank ls a r.fs id s).1, r.made⟩ = .ok x ↔
      ∀ f, (rootPath ls id).1 = "extensions/".toList ++ f → f.takeWhile (fun c => decide (c ≠ '/')) ∈ extFolders r := by
  have hadd : addCmd w env plain blank ls a r.fs id s = addObjectByPath w env plain blank ls a r.fs id s := by
    unfold addCmd; rw [hf]
  constructor
  · intro h f hff
    by_contra hn
    refine C151_lost make T empty hf hff hn hs hcd (crashPrefix_refl (addCmd w env plain blank ls a r.fs id s).1) ?_ x h
    obtain ⟨u, hu, _⟩ := addCmd_free (w := w) (env := env) (plain := plain) (blank := blank) (a := a) (s := s) hf
    rw [hu]
    simp [writeFile]
  · intro h
    by_cases hin : InExtensions (rootPath ls id).1
    · rcases hin with hin | ⟨f, hin⟩
      · exact absurd hin hfo
      · have hmem := h f hin
        have hops : ∀ op ∈ (addCmd w env plain blank ls a r.fs id s).1,
            ∃ q, op.path = under ("extensions/".toList ++ f) q ∧ q ≠ "config.json".toList := by
          intro op hop
          obtain ⟨q, h1, h2⟩ := add_config hf hs hcd hop
          exact ⟨q, by rw [← hin]; exact h1, h2⟩
        generalize (addCmd w env plain blank ls a r.fs id s).1 = t at hops
        have hfold : ∀ k, k ∈ extFolders ⟨applyOps r.fs t, r.made⟩ ↔ k ∈ extFolders r := by
          intro k
          rw [mem_extFolders, mem_extFolders]
          constructor
          · rintro (h1 | ⟨p, h1, h2⟩)
            · exact .inl h1
            · rcases mget_applyOps_some (mem_mkeys_mget.1 h1) with h3 | ⟨op, h3, h4⟩
              · exact .inr ⟨p, mem_mkeys_mget.2 h3, h2⟩
              · obtain ⟨q, h5, _⟩ := hops op h3
                rw [← h4, h5, extFolderOf_in] at h2
                cases h2
                exact mem_extFolders.1 hmem
          · rintro (h1 | ⟨p, h1, h2⟩)
            · exact .inl h1
            · exact .inr ⟨p, mem_mkeys_mget.2 (mget_applyOps_ne_none (mem_mkeys_mget.1 h1)), h2⟩
        have hslash : ∀ k ∈ extFolders r, '/' ∉ k := by
          intro k hk
          rcases mem_extFolders.1 hk with h1 | ⟨p, _, h2⟩
          · exact hmade k h1
          · unfold extFolderOf at h2
            split at h2
            · simp only at h2
              split at h2
              · cases h2; exact takeWhile_noSlash _
              · cases h2
            · cases h2
        have hdirs : extDirs T ⟨applyOps r.fs t, r.made⟩ = extDirs T r := by
          unfold extDirs
          rw [sortStr_perm_eq ((List.perm_ext_iff_of_nodup (by unfold extFolders; exact List.nodup_dedup _)
            (by unfold extFolders; exact List.nodup_dedup _)).2 hfold)]
          apply List.map_congr_left
          intro k hk
          have hk := (sortStr_perm _).mem_iff.1 hk
          have : mget (applyOps r.fs t) (cfgPath k) = mget r.fs (cfgPath k) := by
            apply mget_applyOps_ne
            intro op hop he
            obtain ⟨q, h1, h2⟩ := hops op hop
            exact under_cfg_ne (hslash k hk) h2 (h1.symm.trans he)
          rw [this]
        have htop : topFiles (applyOps r.fs t) = topFiles r.fs := by
          apply topFiles_applyOps
          intro op hop
          obtain ⟨q, h1, _⟩ := hops op hop
          rw [h1]; unfold under; simp
        rw [← ho]
        unfold loadStorageRoot
        rw [hdirs, htop]
    · rw [← ho, hadd]
      exact C151_opens_partial make T empty hin (crashPrefix_refl _)

end

/-- the storage root the defaults make -/
def defRoot : RootDisk := (initRoot defText true initArgs11 defMgr [] ⟨[], []⟩).1

theorem defRoot_opens : loadStorageRoot sciMake defText true defRoot = .ok ("1.1".toList, defMgr) := by decide

/-- the hypotheses of the exact theorem are met, on both sides: an object in `a`, one in `extensions/a`, and one in the folder of an
extension -/
example : loadStorageRoot sciMake defText true
      ⟨applyOps defRoot.fs (addCmd exKeep exEnv true (blankInv [] []) flatLayout exArgs defRoot.fs "a".toList (exSession "c/d".toList)).1,
        defRoot.made⟩ = .ok ("1.1".toList, defMgr) ∧
    loadStorageRoot sciMake defText true
      ⟨applyOps defRoot.fs (addCmd exKeep exEnv true (blankInv [] []) flatLayout exArgs defRoot.fs "extensions/a".toList (exSession "c/d".toList)).1,
        defRoot.made⟩ ≠ .ok ("1.1".toList, defMgr) ∧
    loadStorageRoot sciMake defText true
      ⟨applyOps defRoot.fs (addCmd exKeep exEnv true (blankInv [] []) flatLayout exArgs defRoot.fs "extensions/initial/a".toList (exSession "c/d".toList)).1,
        defRoot.made⟩ = .ok ("1.1".toList, defMgr) := by
  refine ⟨?_, ?_, ?_⟩
  · rw [C151_exact sciMake defText true defRoot_opens (by decide) (by decide) (by decide) exNames (by decide)]
    intro f hf
    exact absurd (congrArg List.head? hf) (by show some 'a' ≠ some 'e'; decide)
  · rw [Ne, C151_exact sciMake defText true defRoot_opens (by decide) (by decide) (by decide) exNames (by decide)]
    intro h
    exact absurd (h "a".toList (by decide)) (by decide)
  · rw [C151_exact sciMake defText true defRoot_opens (by decide) (by decide) (by decide) exNames (by decide)]
    intro f hf
    have : f = "initial/a".toList := List.append_cancel_left (hf.symm.trans (by decide : _ = "extensions/".toList ++ "initial/a".toList))
    rw [this]; decide

/-- **C151 is violated**: with the flat layout, `add` of the object `extensions/a` reports success; afterwards no command can open
the storage root. -/
theorem C151_full_fails : ¬ C151_full := by
  intro hf
  have h := hf Layout sciMake defText true exKeep exEnv true (blankInv [] []) flatLayout exArgs defRoot "extensions/a".toList
    (exSession "c/d".toList) _ defRoot_opens (by decide)
  refine C151_lost (w := exKeep) (env := exEnv) (plain := true) (blank := blankInv [] []) (ls := flatLayout) (a := exArgs) (r := defRoot)
    (id := "extensions/a".toList) (s := exSession "c/d".toList) sciMake defText true (f := "a".toList) (by decide) (by decide) (by decide)
    exNames (by decide) (crashPrefix_refl _) (by decide) ("1.1".toList, defMgr) ?_
  have hx : objectExists flatLayout defRoot.fs "extensions/a".toList = .ok false := by decide
  have : addCmd exKeep exEnv true (blankInv [] []) flatLayout exArgs defRoot.fs "extensions/a".toList (exSession "c/d".toList) =
      addObjectByPath exKeep exEnv true (blankInv [] []) flatLayout exArgs defRoot.fs "extensions/a".toList (exSession "c/d".toList) := by
    unfold addCmd; rw [hx]
  rw [this]
  exact h

/-! ## C152: message, user and address given with a command are recorded -/

/-- version `v` of the inventory has message, user, address and time -/
def HasData (inv : Inv) (v : Str) (msg user address created : Str) : Prop :=
  ∃ ver, mget inv.versions v = some ver ∧ ver.message = msg ∧ ver.userName = user ∧ ver.userAddress = address ∧ ver.created = created

/-- **C152**, a session: the new version has the data given, the older ones have those they had. -/
theorem C152_session {w : World} (hc : Codec w) (hx : HexHash w) (hL : LowerHash w) (ht : ∀ t, w.time (w.time t) = w.time t)
    {fs : FS} {p N : Nat} {inv : Inv} {s : Session} (I : Intact w fs p N inv) (hs : CleanSession w p N inv s) :
    ∃ r, ValidObject w (applyOps fs (session w inv s).obj.trace) p (N + 1) r ∧
      (loadedInv p r).id = inv.id ∧ (loadedInv p r).head = verName (p : Int) ((N + 1 : Nat) : Int) ∧
      HasData (loadedInv p r) (loadedInv p r).head s.info.msg s.info.userName s.info.userAddress (w.time s.info.now) ∧
      ∀ v msg user address created, v ≠ (loadedInv p r).head →
        (HasData (loadedInv p r) v msg user address created ↔ ∃ t, created = w.time t ∧ HasData inv v msg user address t) := by
  obtain ⟨r, _, R, hV, hI⟩ := C80_session_valid hc hx hL ht I hs
  have hnd : (mkeys r.inv.versions).Nodup := hI.ok.wf.1.nodup
  obtain ⟨i, o, f, D⟩ := deposited hL I.ok hs.names hs.rounds hs.completes hs.modified
  obtain ⟨_, _, _, s4, _, _, s7, s8⟩ := D.scalars I.ok
  rw [D.result] at R
  have hhead : r.inv.head = o.inv.head := R.scalars.2.2.2.1.symm
  refine ⟨r, hV, R.scalars.1.symm.trans s4, hhead.trans s7, ?_, ?_⟩
  · obtain ⟨i', hi, _, _, ver, h1, h2, h3, h4, h5, _⟩ :=
      C02_new_version_copies I.ok.wf.1 I.ok.wf.2 s.info.msg s.info.userName s.info.userAddress s.info.now
    rw [D.opened] at hi
    cases hi
    obtain ⟨st, hst⟩ := D.dep.headOnly.headMeta ver h1
    obtain ⟨ver', h6, h7, h8, h9, h10, _⟩ := R.version _ _ (mem_of_mget hst)
    refine ⟨ver', ?_, h8.symm.trans h2, h9.symm.trans h3, h10.symm.trans h4, ?_⟩
    · refine mget_of_mem hnd ?_
      show (r.inv.head, ver') ∈ r.inv.versions
      rw [hhead, ← s8]; exact h6
    · rw [← h7]; show w.time ver.created = _; rw [h5]
  · intro v msg user address created hv
    have hv : v ≠ o.inv.head := fun h => hv (h.trans hhead.symm)
    constructor
    · rintro ⟨ver', h1, h2, h3, h4, h5⟩
      obtain ⟨ver, h6, h7, h8, h9, h10, _⟩ := R.version' v ver' (mem_of_mget h1)
      rcases D.version I.ok h6 with h | ⟨_, h⟩
      · exact absurd h hv
      · exact ⟨ver.created, h5.symm.trans h7.symm, ver, mget_of_mem I.ok.wf.1.nodup h, h8.trans h2, h9.trans h3, h10.trans h4, rfl⟩
    · rintro ⟨t, rfl, ver, h1, h2, h3, h4, h5⟩
      obtain ⟨ver', h6, h7, h8, h9, h10, _⟩ := R.version v ver (D.versionOld I.ok (mem_of_mget h1))
      exact ⟨ver', mget_of_mem hnd h6, h8.symm.trans h2, h9.symm.trans h3, h10.symm.trans h4, by rw [← h7]; show w.time ver.created = _; rw [h5]⟩

/-- **C152, `add` and `create`**: the object that was added opens; its only version has the data given. -/
theorem C152_add {w : World} {env : Env} {plain : Bool} {blank : Inv} {ls : List (Str → Res Str)} {a : CreateArgs} {fs : FS}
    {id : Str} {s : Session} (hc : Codec w) (hx : HexHash w) (hL : LowerHash w) (ht : ∀ t, w.time (w.time t) = w.time t)
    (hga : GoodArgs a id) (hex : objectExists ls fs id = .ok false)
    (he : (addCmd w env plain blank ls a fs id s).2 = none)
    (hs : CleanSession w 0 0 (newInv id a.spec a.alg a.contentDir a.fixity) s) :
    ∃ i f, loadByID w env plain blank ls (applyOps fs (addCmd w env plain blank ls a fs id s).1) id = .ok (i, f) ∧
      i.id = id ∧ i.head = "v1".toList ∧ (∀ v, v ∈ mkeys i.versions ↔ v = "v1".toList) ∧
      HasData i "v1".toList s.info.msg s.info.userName s.info.userAddress (w.time s.info.now) := by
  have hadd : addCmd w env plain blank ls a fs id s = addObjectByPath w env plain blank ls a fs id s := by
    unfold addCmd; rw [hex]
  rw [hadd] at he ⊢
  unfold addObjectByPath at he ⊢
  rw [hex] at he ⊢
  simp only at he ⊢
  cases hcr : (createObject ls a fs id).2 with
  | error e => rw [hcr] at he; cases he
  | ok x =>
    obtain ⟨folder, inv⟩ := x
    rw [hcr] at he
    simp only at he ⊢
    obtain ⟨rfl, hinv, hemp, hops⟩ := createObject_ok hcr
    have hini : (initObject a [] id).2 = .ok inv := by
      unfold createObject at hcr
      simp only [hemp] at hcr
      obtain ⟨j, hj, hcr⟩ := res_bind_eq_ok.1 hcr
      split at hcr
      · cases hcr
      · cases hcr; exact hj
    obtain ⟨I, hI⟩ := intact_new (w := w) hga hini
    have hsub : subFS (applyOps fs ((createObject ls a fs id).1 ++ (inFolder (rootPath ls id).1 (session w inv s)).1)) (rootPath ls id).1 =
        applyOps (applyOps [] (initObject a [] id).1) (session w inv s).obj.trace := by
      rw [applyOps_append]
      unfold inFolder
      rw [subFS_applyOps_lift]
      congr 1
      have : (createObject ls a fs id).1 = (initObject a [] id).1.map (FsOp.lift (rootPath ls id).1) := by
        unfold createObject; simp only [hemp]
      rw [this, subFS_applyOps_lift, hemp]
    rw [← hI] at hs
    obtain ⟨r, O, hid, h1, h2, _⟩ := C152_session hc hx hL ht I hs
    have hk : ∀ v, v ∈ mkeys (loadedInv 0 r).versions ↔ v = "v1".toList := by
      intro v
      have := (valid_loaded O.inv).mem_keys v
      rw [this]
      constructor
      · rintro ⟨n, g1, g2, rfl⟩
        have : n = 1 := by omega
        subst this
        decide
      · rintro rfl
        exact ⟨1, by omega, by omega, by decide⟩
    rw [← hsub] at O
    obtain ⟨f, hload⟩ := loadByID_valid env plain blank (rootPath_of_exists hex) O
    have hv1 : (loadedInv 0 r).head = "v1".toList := h1.trans (by decide)
    exact ⟨_, f, hload, hid.trans (by rw [hI]; rfl), hv1, hk, hv1 ▸ h2⟩

/-- **C152, `update`**: the object that was updated opens; its new version has the data given, the others those they had. -/
theorem C152_update {w : World} {env : Env} {plain : Bool} {blank : Inv} {ls : List (Str → Res Str)} {a : CreateArgs} {fs : FS}
    {id : Str} {s : Session} {inv : Inv} {f0 : List Fnd} {p N : Nat} (hc : Codec w) (hx : HexHash w) (hL : LowerHash w)
    (ht : ∀ t, w.time (w.time t) = w.time t) (hl : loadByID w env plain blank ls fs id = .ok (inv, f0))
    (I : Intact w (subFS fs (rootPath ls id).1) p N inv) (hs : CleanSession w p N inv s) :
    ∃ i f, loadByID w env plain blank ls (applyOps fs (updateCmd w env plain blank ls a fs id s).1) id = .ok (i, f) ∧
      i.id = inv.id ∧ i.head = verName (p : Int) ((N + 1 : Nat) : Int) ∧
      HasData i i.head s.info.msg s.info.userName s.info.userAddress (w.time s.info.now) ∧
      ∀ v msg user address created, v ≠ i.head →
        (HasData i v msg user address created ↔ ∃ t, created = w.time t ∧ HasData inv v msg user address t) := by
  have hroot : (rootPath ls id).2 = false := by
    unfold loadByID at hl
    split at hl
    · cases hl
    · rename_i hr; exact Bool.eq_false_iff.2 hr
  have hex : objectExists ls fs id = .ok true := by
    obtain ⟨num, _, hd, _⟩ := I.decl
    exact objectExists_of_file hroot (p := declName num) (by rw [← mget_subFS, hd]; simp)
  have hupd : updateCmd w env plain blank ls a fs id s = inFolder (rootPath ls id).1 (session w inv s) := by
    unfold updateCmd addObjectByPath
    simp only [hex, hl]
  rw [hupd]
  have hsub : subFS (applyOps fs (inFolder (rootPath ls id).1 (session w inv s)).1) (rootPath ls id).1 =
      applyOps (subFS fs (rootPath ls id).1) (session w inv s).obj.trace := subFS_applyOps_lift _ _ _
  obtain ⟨r, O, h1, h2, h3, h4⟩ := C152_session hc hx hL ht I hs
  rw [← hsub] at O
  obtain ⟨f, hload⟩ := loadByID_valid env plain blank hroot O
  exact ⟨_, f, hload, h1, h2, h3, h4⟩

/-- **C152, the options** of `create`, `add` and `update`: what is given is what the session gets.  Missing: a text given as
empty. -/
theorem C152_options_partial {known : Str → Bool} {c : Command} {file : ConfFile} {g : Given} {k : Conf}
    (h : settle known c file g = .ok k) (hc : c = .create ∨ c = .add ∨ c = .update) (id src : Str) (args : List Str) (now : Str)
    (hooks : Session) (files : List InFile) {v : Str} (hv : v ≠ []) :
    (mget g.str "message".toList = some v → ((cmdLineOf c k id src args now hooks).session files).info.msg = v) ∧
    (mget g.str "user-name".toList = some v → ((cmdLineOf c k id src args now hooks).session files).info.userName = v) ∧
    (mget g.str "user-address".toList = some v → ((cmdLineOf c k id src args now hooks).session files).info.userAddress = v) := by
  rcases hc with rfl | rfl | rfl <;> refine ⟨fun hg => ?_, fun hg => ?_, fun hg => ?_⟩
  · exact C140_texts h (f := "message") (s := .addMessage) (.inl (by simp [textOptions])) hg hv
  · exact C140_texts h (f := "user-name") (s := .addUserName) (.inl (by simp [textOptions])) hg hv
  · exact C140_texts h (f := "user-address") (s := .addUserAddress) (.inl (by simp [textOptions])) hg hv
  · exact C140_texts h (f := "message") (s := .addMessage) (.inl (by simp [textOptions])) hg hv
  · exact C140_texts h (f := "user-name") (s := .addUserName) (.inl (by simp [textOptions])) hg hv
  · exact C140_texts h (f := "user-address") (s := .addUserAddress) (.inl (by simp [textOptions])) hg hv
  · exact C140_texts h (f := "message") (s := .updMessage) (.inl (by simp [textOptions])) hg hv
  · exact C140_texts h (f := "user-name") (s := .updUserName) (.inl (by simp [textOptions])) hg hv
  · exact C140_texts h (f := "user-address") (s := .updUserAddress) (.inl (by simp [textOptions])) hg hv

/-- **C152, in full**: the object `add` makes has the message given with `--message`. -/
def C152_full : Prop := ∀ (w : World) (env : Env) (plain : Bool) (blank : Inv) (ls : List (Str → Res Str)) (a : CreateArgs) (fs : FS)
  (known : Str → Bool) (file : ConfFile) (g : Given) (k : Conf) (id src : Str) (args : List Str) (now : Str) (hooks : Session)
  (files : List InFile) (v : Str), Codec w → HexHash w → LowerHash w → (∀ t, w.time (w.time t) = w.time t) →
  settle known .add file g = .ok k → mget g.str "message".toList = some v → GoodArgs a id → objectExists ls fs id = .ok false →
  (addCmd w env plain blank ls a fs id ((cmdLineOf .add k id src args now hooks).session files)).2 = none →
  CleanSession w 0 0 (newInv id a.spec a.alg a.contentDir a.fixity) ((cmdLineOf .add k id src args now hooks).session files) →
  ∃ i f user address created, loadByID w env plain blank ls (applyOps fs (addCmd w env plain blank ls a fs id
      ((cmdLineOf .add k id src args now hooks).session files)).1) id = .ok (i, f) ∧ HasData i i.head v user address created

/-- a command line with a message and a user, for one file -/
def cliGiven (msg : Str) : Given := { str := [("message".toList, msg), ("user-name".toList, "Jo".toList)] }

def cliSession (msg : Str) : Session :=
  (cmdLineOf .add (settled .add {} (cliGiven msg)) "a".toList "src".toList [] "t".toList (exSession [])).session
    [⟨"content".toList, "c/d".toList, [7]⟩]

theorem cli_settled (msg : Str) : settle exAlgs .add {} (cliGiven msg) = .ok (settled .add {} (cliGiven msg)) := by
  by_cases h : msg = []
  · subst h; rfl
  · obtain ⟨c, m, rfl⟩ := List.exists_cons_of_ne_nil h
    rfl

theorem cli_clean (msg : Str) (he : (session exKeep lifeInv0 (cliSession msg)).err = none)
    (hm : (session exKeep lifeInv0 (cliSession msg)).obj.inv.modified = true)
    (hh : HeadPathsOk (session exKeep lifeInv0 (cliSession msg)).obj.inv) : CleanSession exKeep 0 0 lifeInv0 (cliSession msg) where
  names := by
    intro x hx i hi
    have : x = ("c/d".toList, "content".toList) := by
      simpa [Session.uses, cliSession, cmdLineOf, CmdLine.session, addAll, exSession, callsUses, Call.uses] using hx
    subst this
    cases hi
    exact ⟨1, by decide⟩
  rounds := rfl
  distinct := by
    have : (targets exKeep { lifeInv0 with head := verName lifeInv0.paddingLength ((0 + 1 : Nat) : Int) }
      ((exSession []).before ++ (addAll true [⟨"content".toList, "c/d".toList, [7]⟩]) ++ (exSession []).after)).Nodup := by decide
    exact this
  completes := he
  modified := hm
  paths := hh
  width := by decide

/-- the hypotheses are met: `add --message hi --user-name Jo` -/
theorem cli_added : ∃ i f, loadByID exKeep exEnv true (blankInv [] []) flatLayout
    (applyOps [] (addCmd exKeep exEnv true (blankInv [] []) flatLayout exArgs [] "a".toList (cliSession "hi".toList)).1) "a".toList = .ok (i, f) ∧
    HasData i "v1".toList "hi".toList "Jo".toList [] "t".toList := by
  obtain ⟨i, f, h1, _, _, _, h2⟩ := C152_add (w := exKeep) (env := exEnv) (plain := true) (blank := blankInv [] []) (ls := flatLayout)
    (a := exArgs) (fs := []) (id := "a".toList) (s := cliSession "hi".toList) (codecWorld_codec _) (codecWorld_hex _) exKeep_lower
    (fun _ => rfl) exArgs_good (by decide) (by decide)
    (cli_clean _ (by decide) (by decide) (headPaths_of (p := 0) (N := 1) (validInv_of (by decide))))
  refine ⟨i, f, h1, ?_⟩
  obtain ⟨o1, o2, _⟩ := C152_options_partial (cli_settled "hi".toList) (.inr (.inl rfl)) "a".toList "src".toList [] "t".toList
    (exSession []) [⟨"content".toList, "c/d".toList, [7]⟩] (v := "hi".toList) (by decide)
  have e1 : (cliSession "hi".toList).info.msg = "hi".toList := o1 (by decide)
  rw [e1] at h2
  exact h2

/-- **C152 is violated**: `add --message ""` records the default `initial add`. -/
theorem C152_full_fails : ¬ C152_full := by
  intro hf
  have hcl : CleanSession exKeep 0 0 lifeInv0 (cliSession []) :=
    cli_clean _ (by decide) (by decide) (headPaths_of (p := 0) (N := 1) (validInv_of (by decide)))
  obtain ⟨i, f, user, address, created, h1, h2⟩ := hf exKeep exEnv true (blankInv [] []) flatLayout exArgs [] exAlgs {} (cliGiven []) _
    "a".toList "src".toList [] "t".toList (exSession []) [⟨"content".toList, "c/d".toList, [7]⟩] [] (codecWorld_codec _) (codecWorld_hex _)
    exKeep_lower (fun _ => rfl) (cli_settled []) rfl exArgs_good (by decide) (by decide) hcl
  obtain ⟨i', f', h3, _, h4, _, h5⟩ := C152_add (w := exKeep) (env := exEnv) (plain := true) (blank := blankInv [] []) (ls := flatLayout)
    (a := exArgs) (fs := []) (id := "a".toList) (s := cliSession []) (codecWorld_codec _) (codecWorld_hex _) exKeep_lower
    (fun _ => rfl) exArgs_good (by decide) (by decide) hcl
  have h3 := h1.symm.trans h3
  cases h3
  obtain ⟨ver, g1, g2, _⟩ := h2
  obtain ⟨ver', k1, k2, _⟩ := h5
  rw [h4, k1] at g1
  cases g1
  rw [g2] at k2
  exact absurd k2 (by decide)

/-! ## C153: a `create` that failed can be repeated -/

section
variable {w : World} {env : Env} {plain : Bool} {blank : Inv} {ls : List (Str → Res Str)} {n : NewRoot β} {a : CreateArgs}
  {u : Surroundings} {c : CmdLine} {s : RootDisk}

/-- **C153, in full**: after a `create` that failed, the same or another `create` does what it would have done at first. -/
def C153_full : Prop := ∀ (β : Type) (w : World) (env : Env) (plain : Bool) (blank : Inv) (ls : List (Str → Res Str)) (n n' : NewRoot β)
  (a a' : CreateArgs) (u u' : Surroundings) (c c' : CmdLine) (s : RootDisk),
  (createRun w env plain blank ls n a u c s).2.success = false →
  createRun w env plain blank ls n' a' u' c' (createRun w env plain blank ls n a u c s).1 = createRun w env plain blank ls n' a' u' c' s

/-- **C153**: where there is anything already, `create` changes nothing and fails. -/
theorem C153_refused (h : s.fs ≠ [] ∨ s.made ≠ []) :
    createRun w env plain blank ls n a u c s = (s, ⟨false, none⟩) := by
  unfold createRun
  cases openFolders u c with
  | error e => rfl
  | ok files =>
    obtain ⟨e, he⟩ := C132_refused n.T n.folders n.init n.mgr n.layouts s h
    simp only [he]

theorem initRoot_some {T : CfgText β} {folders : Bool} {i : InitArgs β} {m : ExtMgr β} {layouts : List (Ext β)} {s : RootDisk} {e : GoErr}
    (h : (initRoot T folders i m layouts s).2 = some e) : (initRoot T folders i m layouts s).1 = s := by
  unfold initRoot at h ⊢
  split
  · rename_i h1
    rw [if_pos h1] at h
    split
    · rename_i h2; rw [if_pos h2] at h; cases h
    · rfl
  · rfl

theorem initRoot_none {T : CfgText β} {folders : Bool} {i : InitArgs β} {m : ExtMgr β} {layouts : List (Ext β)} {s : RootDisk}
    (h : (initRoot T folders i m layouts s).2 = none) :
    s = ⟨[], []⟩ ∧ mget (initRoot T folders i m layouts s).1.fs ("0=".toList ++ (rootDecl ++ i.version)) ≠ none := by
  unfold initRoot at h ⊢
  split
  · rename_i h1
    rw [if_pos h1] at h
    split
    · rename_i h2
      refine ⟨by cases s; simp only at h2; rw [h2.1, h2.2], ?_⟩
      unfold initTop writeAll
      simp only [List.cons_append, List.flatMap_cons, writeFile, List.nil_append, applyOps_cons]
      apply mget_applyOps_ne_none
      apply mget_applyOps_ne_none (t := [FsOp.append _ _])
      simp [FsOp.apply]
    · rename_i h2; rw [if_neg h2] at h; cases h
  · rename_i h1; rw [if_neg h1] at h; cases h

/-- the storage root is not empty when `create` has got that far -/
theorem create_wrote (h : (createRun w env plain blank ls n a u c s).1 ≠ s) :
    s = ⟨[], []⟩ ∧ (createRun w env plain blank ls n a u c s).1.fs ≠ [] := by
  unfold createRun at h ⊢
  cases hf : openFolders u c with
  | error e => rw [hf] at h; exact absurd rfl h
  | ok files =>
    rw [hf] at h
    simp only at h ⊢
    cases hr : (initRoot n.T n.folders n.init n.mgr n.layouts s).2 with
    | some e => rw [hr] at h; exact absurd (initRoot_some hr) h
    | none =>
      obtain ⟨h1, h2⟩ := initRoot_none hr
      refine ⟨h1, ?_⟩
      simp only
      generalize addObjectByPath w env plain blank ls a (initRoot n.T n.folders n.init n.mgr n.layouts s).1.fs c.id (c.session files) = x
      have h3 : applyOps (initRoot n.T n.folders n.init n.mgr n.layouts s).1.fs x.1 ≠ [] := by
        intro he
        have := mget_applyOps_ne_none (t := x.1) h2
        rw [he] at this
        exact this rfl
      cases x.2 <;> exact h3

/-- **C153, what happens**: a `create` that changed anything, whether it failed or not, can never be repeated: every later
`create` at that place fails, with whatever arguments. -/
theorem C153_blocked {n' : NewRoot β} {a' : CreateArgs} {u' : Surroundings} {c' : CmdLine}
    (h : (createRun w env plain blank ls n a u c s).1 ≠ s) :
    createRun w env plain blank ls n' a' u' c' (createRun w env plain blank ls n a u c s).1 =
      ((createRun w env plain blank ls n a u c s).1, ⟨false, none⟩) :=
  C153_refused (.inl (create_wrote h).2)

/-- **C153, the part that holds**, exact: a `create` changes nothing exactly if a folder to add cannot be read, the version is not
supported or the place is not empty; only then it can be repeated. -/
theorem C153_unchanged_partial : (createRun w env plain blank ls n a u c s).1 = s ↔
    (∃ e, openFolders u c = .error e) ∨ supportedRoot n.init.version = false ∨ s ≠ ⟨[], []⟩ := by
  constructor
  · intro h
    by_contra hc
    rw [not_or, not_or] at hc
    obtain ⟨h1, h2, h3⟩ := hc
    have h2 : supportedRoot n.init.version = true := by simpa using h2
    have h3 : s = ⟨[], []⟩ := by simpa using h3
    obtain ⟨files, hf⟩ : ∃ f, openFolders u c = .ok f := by
      cases hf : openFolders u c with
      | error e => exact absurd ⟨e, hf⟩ h1
      | ok f => exact ⟨f, rfl⟩
    have hr : (initRoot n.T n.folders n.init n.mgr n.layouts s).2 = none := by
      unfold initRoot; rw [if_pos h2, h3]; rfl
    have h4 := (initRoot_none hr).2
    unfold createRun at h
    simp only [hf, hr] at h
    generalize addObjectByPath w env plain blank ls a (initRoot n.T n.folders n.init n.mgr n.layouts s).1.fs c.id (c.session files) = x at h
    have h5 := mget_applyOps_ne_none (t := x.1) h4
    have h6 : (⟨applyOps (initRoot n.T n.folders n.init n.mgr n.layouts s).1.fs x.1, (initRoot n.T n.folders n.init n.mgr n.layouts s).1.made⟩ :
        RootDisk) = s := by
      cases hx : x.2 <;> rw [hx] at h <;> exact h
    have h7 := congrArg RootDisk.fs h6
    simp only [h3] at h7
    rw [h3, h7] at h5
    exact h5 rfl
  · intro h
    by_contra hne
    have hw := create_wrote hne
    rcases h with ⟨e, he⟩ | h | h
    · unfold createRun at hne; rw [he] at hne; exact hne rfl
    · unfold createRun at hne
      cases hf : openFolders u c with
      | error e => rw [hf] at hne; exact hne rfl
      | ok files =>
        rw [hf] at hne
        have hr : initRoot n.T n.folders n.init n.mgr n.layouts s = (s, some (.error "storage root version not supported")) := by
          unfold initRoot; rw [if_neg (by rw [h]; simp)]
        simp only [hr] at hne
        exact hne trivial
    · exact h hw.1

/-- **C153, why `add` does not help**: if the object of a `create` could not be completed, then `add` of that object reports
success and does nothing, opening it and `update` end with an error, and `create` fails, for ever. -/
theorem C153_stuck {files : List InFile} (hf : openFolders u c = .ok files)
    (hr : (initRoot n.T n.folders n.init n.mgr n.layouts s).2 = none)
    (hx : objectExists ls (initRoot n.T n.folders n.init n.mgr n.layouts s).1.fs c.id = .ok false) (hs : SafeNames w (c.session files))
    (hcd : a.contentDir ≠ ".".toList ∧ a.contentDir ≠ "..".toList ∧ '/' ∉ a.contentDir)
    (he : (addObjectByPath w env true blank ls a (initRoot n.T n.folders n.init n.mgr n.layouts s).1.fs c.id (c.session files)).2 ≠ none)
    (n' : NewRoot β) (a' : CreateArgs) (u' : Surroundings) (c' : CmdLine) (s' : Session) :
    let r := createRun w env true blank ls n a u c s
    r.2 = ⟨false, none⟩ ∧
    createRun w env true blank ls n' a' u' c' r.1 = (r.1, ⟨false, none⟩) ∧
    addCmd w env true blank ls a' r.1.fs c.id s' = ([], none) ∧
    (∃ e, updateCmd w env true blank ls a' r.1.fs c.id s' = ([], some e)) ∧
    (∃ e, loadByID w env true blank ls r.1.fs c.id = .error e) := by
  intro r
  generalize hi : (initRoot n.T n.folders n.init n.mgr n.layouts s).1 = i at *
  have hadd : addCmd w env true blank ls a i.fs c.id (c.session files) = addObjectByPath w env true blank ls a i.fs c.id (c.session files) := by
    unfold addCmd; rw [hx]
  have hr1 : r.1.fs = applyOps i.fs (addCmd w env true blank ls a i.fs c.id (c.session files)).1 := by
    rw [hadd]
    show (createRun w env true blank ls n a u c s).1.fs = _
    unfold createRun
    simp only [hf, hr, hi]
    split <;> rfl
  obtain ⟨_, h2, h3, h4⟩ := C122_failed_stuck hx hs hcd (by rw [hadd]; exact he) a' s'
  have hne : r.1 ≠ s := by
    intro hrs
    rcases C153_unchanged_partial.1 hrs with ⟨e, h⟩ | h | h
    · rw [hf] at h; cases h
    · have : (initRoot n.T n.folders n.init n.mgr n.layouts s).2 ≠ none := by
        unfold initRoot; rw [if_neg (by rw [h]; simp)]; simp
      exact this hr
    · exact h (initRoot_none hr).1
  refine ⟨?_, C153_blocked hne, by rw [hr1]; exact h4, by rw [hr1]; exact h3, by rw [hr1]; exact h2⟩
  show (createRun w env true blank ls n a u c s).2 = _
  unfold createRun
  simp only [hf, hr, hi]
  split
  · rfl
  · rename_i h; exact absurd h he

end

/-- one source folder with one file -/
def oneFile : Surroundings := ⟨fun _ => .ok [("c/d".toList, [7])], id, true, []⟩

/-- a command line for the object `a` -/
def cliA : CmdLine := ⟨"a".toList, "content".toList, "src".toList, [], true, exSession []⟩

def defNew : NewRoot Layout := ⟨defText, true, initArgs11, defMgr, []⟩

/-- the hypotheses are met: `create --fixity md5` without the extension that allows it -/
example (s' : Session) :
    let r := createRun exKeep exEnv true (blankInv [] []) flatLayout defNew badFixity oneFile cliA ⟨[], []⟩
    r.2 = ⟨false, none⟩ ∧ addCmd exKeep exEnv true (blankInv [] []) flatLayout exArgs r.1.fs "a".toList s' = ([], none) := by
  have h := C153_stuck (w := exKeep) (env := exEnv) (blank := blankInv [] []) (ls := flatLayout) (n := defNew) (a := badFixity)
    (u := oneFile) (c := cliA) (s := ⟨[], []⟩) (files := [⟨"content".toList, "c/d".toList, [7]⟩]) rfl rfl (by decide)
    (rt_names (files := [⟨"content".toList, "c/d".toList, [7]⟩]) (fun f hf => by cases List.mem_singleton.1 hf; exact ⟨1, by decide⟩))
    (by decide) (by decide) defNew exArgs oneFile cliA s'
  exact ⟨h.1, h.2.2.1⟩

/-- **C153 is violated**: `create --fixity md5` without the extension that allows it fails; the same `create` without `--fixity`
then fails, too, where it would have succeeded. -/
theorem C153_full_fails : ¬ C153_full := by
  intro hf
  have h := hf Layout exKeep exEnv true (blankInv [] []) flatLayout defNew defNew badFixity exArgs oneFile oneFile cliA cliA ⟨[], []⟩ (by decide)
  have h1 := C153_blocked (w := exKeep) (env := exEnv) (plain := true) (blank := blankInv [] []) (ls := flatLayout) (n := defNew) (a := badFixity)
    (u := oneFile) (c := cliA) (s := ⟨[], []⟩) (n' := defNew) (a' := exArgs) (u' := oneFile) (c' := cliA) (by decide)
  rw [h1] at h
  have h2 := congrArg (fun x => x.2.success) h
  exact absurd h2 (by decide)

/-! ## C154: `create` makes the storage root and the object asked for -/

section
variable {w : World} {env : Env} {plain : Bool} {blank : Inv} {ls : List (Str → Res Str)} {fs : FS} {a : CreateArgs} {id : Str}
  {s : Session} {dup : Bool} {files : List InFile} {h : Bytes → Str}

/-- the session that adds new files to a new object is clean -/
theorem newFiles_clean (hx : HexHash w) (hL : LowerHash w) (hga : GoodArgs a id) (hh : w.hash a.alg = some h) (ha : AddsOnly s dup files)
    (hf : NewFiles w h a id s files) (hi : (initObject a [] id).2 = .ok (newInv id a.spec a.alg a.contentDir a.fixity))
    (he : (session w (newInv id a.spec a.alg a.contentDir a.fixity) s).err = none) :
    CleanSession w 0 0 (newInv id a.spec a.alg a.contentDir a.fixity) s := by
  have hno : ∀ v q, ¬ HasPath (newInv id a.spec a.alg a.contentDir a.fixity) v q := by
    rintro v q ⟨d, ver, ps, hv, _⟩
    cases hv
  have hman : ∀ d m, (d, m) ∉ (newInv id a.spec a.alg a.contentDir a.fixity).manifest := by intro d m hm; cases hm
  have hpath : ∀ q, PathAfter w (newInv id a.spec a.alg a.contentDir a.fixity) files q → ∃ f ∈ files, StatePathOf w f q := by
    rintro q (hq | hq)
    · exact absurd hq (hno _ _)
    · exact hq
  refine goodFiles_clean hx hL (intact_new hga hi).1 ha hh ⟨hf.some, hf.names, hf.targets, hf.paths, fun f hf q hq v => hno v q, hf.safe, ?_, ?_⟩
    he (fun h0 => absurd h0 (Nat.lt_irrefl 0))
  · intro x y hx hy
    obtain ⟨f, f1, f2⟩ := hpath x hx
    obtain ⟨g, g1, g2⟩ := hpath y hy
    exact hf.noConflict f f1 g g1 x y f2 g2
  · rintro b b' (⟨d, m, _, hm, _⟩ | ⟨f, f1, rfl⟩) (⟨d', m', _, hm', _⟩ | ⟨g, g1, rfl⟩)
    · exact absurd hm (hman _ _)
    · exact absurd hm (hman _ _)
    · exact absurd hm' (hman _ _)
    · exact hf.noCollision f f1 g g1

/-- what a successful `add` of a new object has run -/
theorem add_ran (hex : objectExists ls fs id = .ok false) (he : (addCmd w env plain blank ls a fs id s).2 = none) (hga : GoodArgs a id) :
    (initObject a [] id).2 = .ok (newInv id a.spec a.alg a.contentDir a.fixity) ∧
    (session w (newInv id a.spec a.alg a.contentDir a.fixity) s).err = none ∧
    subFS (applyOps fs (addCmd w env plain blank ls a fs id s).1) (rootPath ls id).1 =
      applyOps (applyOps [] (initObject a [] id).1) (session w (newInv id a.spec a.alg a.contentDir a.fixity) s).obj.trace := by
  have hadd : addCmd w env plain blank ls a fs id s = addObjectByPath w env plain blank ls a fs id s := by
    unfold addCmd; rw [hex]
  rw [hadd] at he ⊢
  unfold addObjectByPath at he ⊢
  rw [hex] at he ⊢
  simp only at he ⊢
  cases hcr : (createObject ls a fs id).2 with
  | error e => rw [hcr] at he; cases he
  | ok x =>
    obtain ⟨folder, inv⟩ := x
    rw [hcr] at he
    simp only at he ⊢
    obtain ⟨rfl, hinv, hemp, hops⟩ := createObject_ok hcr
    have hini : (initObject a [] id).2 = .ok inv := by
      unfold createObject at hcr
      simp only [hemp] at hcr
      obtain ⟨j, hj, hcr⟩ := res_bind_eq_ok.1 hcr
      split at hcr
      · cases hcr
      · cases hcr; exact hj
    obtain ⟨I, hI⟩ := intact_new (w := w) hga hini
    subst hI
    refine ⟨hini, he, ?_⟩
    rw [applyOps_append]
    unfold inFolder
    rw [subFS_applyOps_lift]
    congr 1
    have : (createObject ls a fs id).1 = (initObject a [] id).1.map (FsOp.lift (rootPath ls id).1) := by
      unfold createObject; simp only [hemp]
    rw [this, subFS_applyOps_lift, hemp]

/-- what is said of the object `id` in the storage root `fs`: it opens, has one version with the data given, gives back the files,
and validation finds no error in it -/
structure NewObject (w : World) (env : Env) (plain : Bool) (blank : Inv) (ls : List (Str → Res Str)) (fs : FS) (id : Str) (info : VInfo)
    (files : List InFile) : Prop where
  /-- it opens and has the data given -/
  data : ∃ i f, loadByID w env plain blank ls fs id = .ok (i, f) ∧ i.id = id ∧ i.head = "v1".toList ∧
    (∀ v, v ∈ mkeys i.versions ↔ v = "v1".toList) ∧ HasData i "v1".toList info.msg info.userName info.userAddress (w.time info.now)
  /-- the files come out again, whatever the names of extraction -/
  files : ∀ xp wm, NamesApart xp (fun q => ∃ f ∈ files, StatePathOf w f q) → ComesOut w env plain blank ls fs id xp wm (Source w files)

/-- **C154, `add`**: what a successful `add` of a new object makes; validation finds no error in it with SHA-512 and a usual content
directory. -/
theorem C154_object_partial (hc : Codec w) (hx : HexHash w) (hL : LowerHash w) (ht : ∀ t, w.time (w.time t) = w.time t)
    (hga : GoodArgs a id) (hh : w.hash a.alg = some h) (hex : objectExists ls fs id = .ok false) (ha : AddsOnly s dup files)
    (he : (addCmd w env plain blank ls a fs id s).2 = none) (hf : NewFiles w h a id s files) :
    NewObject w env plain blank ls (applyOps fs (addCmd w env plain blank ls a fs id s).1) id s.info files ∧
    (a.alg = "sha512".toList → GoodName a.contentDir →
      ∃ F, checkFolder w env plain blank (applyOps fs (addCmd w env plain blank ls a fs id s).1) (rootPath ls id).1 = .ok F ∧ NoErrors F) := by
  obtain ⟨h1, h2, h3⟩ := add_ran hex he hga
  have hcl := newFiles_clean hx hL hga hh ha hf h1 h2
  refine ⟨⟨C152_add hc hx hL ht hga hex he hcl, fun xp wm hxp => (C113_add_partial hc hx hL ht hga hh hex ha he hf hxp wm).1⟩, ?_⟩
  intro hsha hgn
  have I := (intact_new (w := w) hga h1).1
  obtain ⟨r, _, R, hV, _⟩ := C80_session_valid hc hx hL ht I hcl
  obtain ⟨g, hload⟩ := load_valid_any env hV.stored hV.decoded hV.inv
  refine C80_life_accepted_partial hc hx hL ht hga (Life.session _ 0 _ _ s g (Life.new _ h1) hcl hload) (by omega) h3 hsha hgn ?_
  intro _ v ver hver
  have hone : ∀ v, v ∈ mkeys r.inv.versions → v = verName ((0 : Nat) : Int) ((1 : Nat) : Int) := by
    intro v hv
    obtain ⟨n, g1, g2, rfl⟩ := (hV.inv.mem_keys v).1 hv
    have : n = 1 := by omega
    rw [this]
  obtain ⟨k1, _, k3⟩ := adds_state hx hL I.ok.wf ha hf.some hh h2 hf.paths (fun f _ q _ v => by rintro ⟨d, ver, ps, hv, _⟩; cases hv)
  obtain ⟨f, hfm⟩ := List.exists_mem_of_ne_nil _ hf.some
  obtain ⟨q, hq⟩ := k1 f hfm
  obtain ⟨ver', ps, g1, g2, _⟩ := (hasFile_readBack R _ q (h f.data)).2 ((k3 q (h f.data)).2 (.inr ⟨f, hfm, hq, rfl⟩))
  obtain ⟨m, hm⟩ := hV.inv.covered _ ver' _ ps g1 g2
  obtain ⟨x, hxm⟩ := List.exists_mem_of_ne_nil _ (hV.inv.nonempty.1 _ _ hm)
  obtain ⟨v', ver'', y, hv', rfl⟩ := hV.inv.content _ _ _ hm hxm
  refine ⟨_, m, y, hm, ?_⟩
  rw [hone v (mem_mkeys_of_mem hver), ← hone v' (mem_mkeys_of_mem hv')]
  exact hxm

end

section
variable {w : World} {env : Env} {plain : Bool} {blank : Inv} {ls : List (Str → Res Str)} {n : NewRoot β} {a : CreateArgs}
  {u : Surroundings} {c : CmdLine} {s : RootDisk}

/-- **C154**: a `create` that reports success in an empty place has made a storage root that opens with the version and the extensions
asked for, and the object with the files and data given; beside those of the storage root there are only files of the object.
Missing: objects that a layout puts into the folder of the extensions (C151). -/
theorem C154_create_partial {make : Str → Option β → Option β} {back : Str → β → β} {report : Bool}
    {src : List (Str × Option (ExtCfg β))} {files : List InFile} {h : Bytes → Str}
    (hsl : ∀ n r s, make n r = some s → '/' ∉ n) (ho : OwnFolders src) (hn : (src.map (·.1)).Nodup)
    (hs : (src.map (·.1)).Pairwise (fun a b => strLe a b = true)) (hm : createExtensions make report src = .ok (n.mgr, false))
    (hr : n.mgr.sort ≠ [] ∨ n.mgr.exclusion ≠ []) (hb : ∀ k s, Ext.other k s ∈ n.mgr.exts → make k (some s) = some (back k s))
    (hcfg : ∀ e ∈ mgrFiles n.mgr, n.T.dec (n.T.enc e.2) = some e.2) (hdocs : ∀ d ∈ n.init.docs, '/' ∉ d.1 ∧ '=' ∉ d.1)
    (hc : Codec w) (hx : HexHash w) (hL : LowerHash w) (ht : ∀ t, w.time (w.time t) = w.time t) (hga : GoodArgs a c.id)
    (hh : w.hash a.alg = some h) (hfo : openFolders u c = .ok files) (had : AddsOnly (c.session files) c.dup files)
    (hf : NewFiles w h a c.id (c.session files) files) (hin : ¬ InExtensions (rootPath ls c.id).1)
    (hex : objectExists ls (initRoot n.T n.folders n.init n.mgr n.layouts ⟨[], []⟩).1.fs c.id = .ok false)
    (hok : (createRun w env plain blank ls n a u c ⟨[], []⟩).2.success = true) :
    let r := (createRun w env plain blank ls n a u c ⟨[], []⟩).1
    (∀ empty, loadStorageRoot make n.T empty r = .ok (n.init.version, { n.mgr with exts := n.mgr.exts.map (Ext.back back) })) ∧
    NewObject w env plain blank ls r.fs c.id c.rest.info files ∧
    (∀ p, mget r.fs p ≠ none → mget (initRoot n.T n.folders n.init n.mgr n.layouts ⟨[], []⟩).1.fs p ≠ none ∨
      ∃ q, p = under (rootPath ls c.id).1 q) ∧
    (a.alg = "sha512".toList → GoodName a.contentDir →
      ∃ F, checkFolder w env plain blank r.fs (rootPath ls c.id).1 = .ok F ∧ NoErrors F) := by
  intro r
  cases hir : (initRoot n.T n.folders n.init n.mgr n.layouts ⟨[], []⟩).2 with
  | some e =>
    exfalso
    unfold createRun at hok
    simp only [hfo, hir] at hok
    cases hok
  | none =>
    have h1 : ∀ empty, loadStorageRoot make n.T empty (initRoot n.T n.folders n.init n.mgr n.layouts ⟨[], []⟩).1 =
        .ok (n.init.version, { n.mgr with exts := n.mgr.exts.map (Ext.back back) }) :=
      (C132_restart_partial (folders := n.folders) (layouts := n.layouts) hsl ho hn hs hm hr hb hcfg hdocs (Prod.ext rfl hir)).1
    generalize hi : (initRoot n.T n.folders n.init n.mgr n.layouts ⟨[], []⟩).1 = i at *
    have hadd : addCmd w env plain blank ls a i.fs c.id (c.session files) = addObjectByPath w env plain blank ls a i.fs c.id (c.session files) := by
      unfold addCmd; rw [hex]
    cases hx2 : (addObjectByPath w env plain blank ls a i.fs c.id (c.session files)).2 with
    | some e =>
      exfalso
      unfold createRun at hok
      simp only [hfo, hir, hi, hx2] at hok
      cases hok
    | none =>
      have hr' : r = ⟨applyOps i.fs (addObjectByPath w env plain blank ls a i.fs c.id (c.session files)).1, i.made⟩ := by
        show (createRun w env plain blank ls n a u c ⟨[], []⟩).1 = _
        unfold createRun
        simp only [hfo, hir, hi, hx2]
      have O := C154_object_partial (env := env) (plain := plain) (blank := blank) hc hx hL ht hga hh hex had (by rw [hadd]; exact hx2) hf
      rw [hadd] at O
      rw [hr']
      refine ⟨fun empty => ?_, O.1, ?_, O.2⟩
      · rw [← h1 empty]
        exact C151_opens_partial make n.T empty hin (crashPrefix_refl _)
      · intro p hp
        by_cases hq : ∃ op ∈ (addObjectByPath w env plain blank ls a i.fs c.id (c.session files)).1, op.path = p
        · obtain ⟨op, h2, h3⟩ := hq
          obtain ⟨q, h4⟩ := byPath_under h2
          exact .inr ⟨q, h3 ▸ h4⟩
        · left
          rwa [mget_applyOps_ne (fun op h2 h3 => hq ⟨op, h2, h3⟩)] at hp

end

/-- the command line for the files of C113 -/
def cliRt : CmdLine := ⟨"a".toList, "content".toList, "src".toList, ["metadata:meta".toList], true, exSession []⟩

/-- the folders with the files of C113 -/
def rtFolders : Surroundings := ⟨fun p => if p = "src".toList then .ok [("c/d".toList, [1, 2]), ("e".toList, [7])] else .ok [("f".toList, [1, 2])], id, true, []⟩

theorem rt_open : openFolders rtFolders cliRt = .ok rtFiles := by decide

/-- the hypotheses are met -/
example : (∀ empty, loadStorageRoot sciMake defText empty
      (createRun exKeep exEnv false (blankInv [] []) flatLayout defNew exArgs rtFolders cliRt ⟨[], []⟩).1 = .ok ("1.1".toList, defMgr)) ∧
    NewObject exKeep exEnv false (blankInv [] []) flatLayout
      (createRun exKeep exEnv false (blankInv [] []) flatLayout defNew exArgs rtFolders cliRt ⟨[], []⟩).1.fs "a".toList (exSession []).info rtFiles := by
  have h := C154_create_partial (w := exKeep) (env := exEnv) (plain := false) (blank := blankInv [] []) (ls := flatLayout) (n := defNew)
    (a := exArgs) (u := rtFolders) (c := cliRt) (back := fun _ s => s) sciMake_slash defSrc_own
    (by decide) (by decide) defSrc_created (Or.inl (by decide)) ?_ defText_codec (by decide) (codecWorld_codec _) (codecWorld_hex _) exKeep_lower
    (fun _ => rfl) exArgs_good rtHash_eq rt_open (rtSession_adds rtFiles) rt_new ?_ (by decide) (by decide)
  · exact ⟨fun empty => (h.1 empty).trans (by rfl), h.2.1⟩
  · intro n s hs
    have : ∀ e ∈ defMgr.exts, (match e with | .other n s => decide (sciMake n (some s) = some s) | _ => true) = true := by decide
    simpa using this _ hs
  · intro hf
    rcases hf with hf | ⟨f, hf⟩
    · exact absurd hf (by decide)
    · exact absurd (congrArg List.head? hf) (by show some 'a' ≠ some 'e'; decide)

/-- **C154, in full**: whatever the folders contain, a `create` that reports success has made the object with the files and data given. -/
def C154_full : Prop := ∀ (w : World) (env : Env) (plain : Bool) (blank : Inv) (ls : List (Str → Res Str)) (n : NewRoot Layout)
  (a : CreateArgs) (u : Surroundings) (c : CmdLine) (files : List InFile), Codec w → HexHash w → LowerHash w →
  (∀ t, w.time (w.time t) = w.time t) → GoodArgs a c.id → (∃ h, w.hash a.alg = some h) → openFolders u c = .ok files →
  AddsOnly (c.session files) c.dup files → SafeNames w (c.session files) → ¬ InExtensions (rootPath ls c.id).1 →
  objectExists ls (initRoot n.T n.folders n.init n.mgr n.layouts ⟨[], []⟩).1.fs c.id = .ok false →
  (createRun w env plain blank ls n a u c ⟨[], []⟩).2.success = true →
  NewObject w env plain blank ls (createRun w env plain blank ls n a u c ⟨[], []⟩).1.fs c.id c.rest.info files

/-- a source folder without files -/
def noFiles : Surroundings := ⟨fun _ => .ok [], id, true, []⟩

/-- **C154 is violated** for a source folder without files: `create` reports success, but there is no object that could be opened. -/
theorem C154_full_fails : ¬ C154_full := by
  intro hf
  have h := hf exKeep exEnv true (blankInv [] []) flatLayout defNew exArgs noFiles cliA [] (codecWorld_codec _) (codecWorld_hex _)
    exKeep_lower (fun _ => rfl) exArgs_good ⟨_, rtHash_eq⟩ rfl (rtSession_adds []) (rt_names (fun f hf => by cases hf)) ?_ (by decide)
    (by decide)
  · obtain ⟨i, f, h1, _⟩ := h.data
    have h2 : (loadByID exKeep exEnv true (blankInv [] []) flatLayout
        (createRun exKeep exEnv true (blankInv [] []) flatLayout defNew exArgs noFiles cliA ⟨[], []⟩).1.fs "a".toList).toOption.isNone = true := by
      decide
    have h1 : loadByID exKeep exEnv true (blankInv [] []) flatLayout
        (createRun exKeep exEnv true (blankInv [] []) flatLayout defNew exArgs noFiles cliA ⟨[], []⟩).1.fs "a".toList = .ok (i, f) := h1
    rw [h1] at h2
    cases h2
  · rintro (hf | ⟨f, hf⟩)
    · exact absurd hf (by decide)
    · exact absurd (congrArg List.head? hf) (by show some 'a' ≠ some 'e'; decide)

end Gocfl
