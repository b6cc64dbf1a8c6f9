import Verif.Props.ArchiveAuto
import Verif.Props.Create

/-! # C180: every command reads the layouts from the storage root -/

namespace Gocfl

section
variable {hashes : Str → Option (Str → Str)}

theorem loadLayout_name {f : CfgFile} {l : Layout} (h : loadLayout hashes f = .ok l) : (writeConfig l).name = f.name := by
  have nh : ∀ {alg : Str} {l' : Layout}, needHash hashes alg l' = .ok l → l' = l := by
    intro alg l' h
    unfold needHash at h
    split at h
    · cases h
    · cases h; rfl
  unfold loadLayout at h
  split at h
  · rename_i hn; cases h; exact hn.symm
  split at h
  · rename_i hn; cases h; exact hn.symm
  split at h
  · rename_i hn; rw [← nh h]; exact hn.symm
  split at h
  · rename_i hn; rw [← nh h]; exact hn.symm
  split at h
  · rename_i hn; cases h; exact hn.symm
  split at h
  · rename_i hn; cases h; exact hn.symm
  split at h
  · rename_i hn; rw [← nh h]; exact hn.symm
  split at h
  · rename_i hn; rw [← nh h]; exact hn.symm
  · cases h

theorem layoutName_slash (l : Layout) : '/' ∉ (writeConfig l).name := by
  have h : ∀ n ∈ [nmFlatDirect, nmPathDirect, nmHashId, nmHashed, nmFlatOmit, nmTupleOmit, nmPairtree, nmDirectClean], '/' ∉ n := by decide
  apply h
  cases l <;> simp [writeConfig]

theorem file_name (n : Str) (r : Option LayoutState) : (LayoutState.file n r).name = n := by
  rcases r with _ | _ | _ <;> rfl

theorem makeLayout_some {n : Str} {r : Option LayoutState} {s : LayoutState} (h : makeLayout hashes n r = some s) :
    ∃ l, s = .inr l ∧ loadLayout hashes (LayoutState.file n r) = .ok l ∧ (writeConfig l).name = n := by
  unfold makeLayout at h
  split at h
  · rename_i l hl
    cases h
    exact ⟨l, rfl, hl, (loadLayout_name hl).trans (file_name n r)⟩
  · cases h

theorem makeLayout_slash (n : Str) (r : Option LayoutState) (s : LayoutState) (h : makeLayout hashes n r = some s) : '/' ∉ n := by
  obtain ⟨l, _, _, hn⟩ := makeLayout_some h
  exact hn ▸ layoutName_slash l

theorem file_written {n : Str} {l : Layout} (h : (writeConfig l).name = n) : LayoutState.file n (some (.inr l)) = writeConfig l := by
  subst h; rfl

/-- the layout as it is after its configuration was written and loaded -/
def reloaded (hashes : Str → Option (Str → Str)) (n : Str) (s : LayoutState) : LayoutState := (makeLayout hashes n (some s)).getD s

/-- every layout of the manager can be loaded from the configuration it writes -/
def Reloads (hashes : Str → Option (Str → Str)) (m : ExtMgr LayoutState) : Prop :=
  ∀ n l, Ext.other n (.inr l) ∈ m.exts → ∃ l', loadLayout hashes (writeConfig l) = .ok l'

/-- those in use map ids to the same paths then -/
def UsedSurvive (org : Organiser) (hashes : Str → Option (Str → Str)) (m : ExtMgr LayoutState) : Prop :=
  ∀ n ∈ usedNames org m, ∀ l, Ext.other n (.inr l) ∈ m.exts → Survives hashes l

theorem mem_layoutExts {m : ExtMgr LayoutState} {n : Str} {l : Layout} : (n, l) ∈ layoutExts m ↔ Ext.other n (.inr l) ∈ m.exts := by
  unfold layoutExts
  rw [List.mem_filterMap]
  constructor
  · rintro ⟨e, he, h⟩
    rcases e with _ | _ | ⟨k, s | s⟩ <;> simp at h
    obtain ⟨rfl, rfl⟩ := h
    exact he
  · intro h; exact ⟨_, h, rfl⟩

/-- the manager after a restart -/
def restarted (hashes : Str → Option (Str → Str)) (m : ExtMgr LayoutState) : ExtMgr LayoutState :=
  { m with exts := m.exts.map (Ext.back (reloaded hashes)) }

theorem good_layout {m : ExtMgr LayoutState} (hg : GoodExts (makeLayout hashes) m.exts) {n : Str} {s : LayoutState}
    (h : Ext.other n s ∈ m.exts) : ∃ l, s = .inr l ∧ (writeConfig l).name = n := by
  obtain ⟨n', s', he, _, _, r, hr⟩ := hg.others _ h
  cases he
  obtain ⟨l, h1, _, h2⟩ := makeLayout_some hr
  exact ⟨l, h1, h2⟩

theorem reloads_back {m : ExtMgr LayoutState} (hg : GoodExts (makeLayout hashes) m.exts) (hr : Reloads hashes m) (n : Str) (s : LayoutState)
    (h : Ext.other n s ∈ m.exts) : makeLayout hashes n (some s) = some (reloaded hashes n s) := by
  obtain ⟨l, rfl, hn⟩ := good_layout hg h
  obtain ⟨l', hl⟩ := hr n l h
  have : makeLayout hashes n (some (.inr l)) = some (.inr l') := by
    unfold makeLayout; rw [file_written hn, hl]
  unfold reloaded
  rw [this]; rfl

theorem layoutExts_nodup {m : ExtMgr LayoutState} (hg : GoodExts (makeLayout hashes) m.exts) : (mkeys (layoutExts m)).Nodup := by
  have h2 : (mkeys (layoutExts m)).Sublist (m.exts.map Ext.name) := by
    unfold layoutExts mkeys
    generalize m.exts = l
    induction l with
    | nil => exact .slnil
    | cons e l ih =>
      rw [List.map_cons]
      rcases e with ⟨a, b⟩ | ⟨a, b⟩ | ⟨k, s | s⟩
      · exact ih.cons _
      · exact ih.cons _
      · exact ih.cons _
      · exact ih.cons_cons _
  exact hg.nodup.sublist h2

/-- after a restart the same layouts are there, as they are loaded -/
theorem layoutExts_restarted {m : ExtMgr LayoutState} (hg : GoodExts (makeLayout hashes) m.exts) (hr : Reloads hashes m) :
    ∃ f : Layout → Layout, layoutExts (restarted hashes m) = (layoutExts m).map (fun e => (e.1, f e.2)) ∧
      ∀ n l, (n, l) ∈ layoutExts m → loadLayout hashes (writeConfig l) = .ok (f l) := by
  refine ⟨fun l => match loadLayout hashes (writeConfig l) with | .ok l' => l' | .error _ => l, ?_, ?_⟩
  · have h1 := fun n s h => reloads_back hg hr n s h
    have h2 := fun n s (h : Ext.other n s ∈ m.exts) => good_layout hg h
    unfold restarted layoutExts
    simp only
    unfold Reloads at hr
    revert h1 h2 hr
    generalize m.exts = l
    intro hr h1 h2
    induction l with
    | nil => rfl
    | cons e l ih =>
      have ih := ih (fun n l h => hr n l (List.mem_cons_of_mem _ h)) (fun n s h => h1 n s (List.mem_cons_of_mem _ h))
        (fun n s h => h2 n s (List.mem_cons_of_mem _ h))
      rcases e with ⟨a, b⟩ | ⟨a, b⟩ | ⟨k, s⟩
      · exact ih
      · exact ih
      · obtain ⟨l0, rfl, hn⟩ := h2 k s List.mem_cons_self
        obtain ⟨l', hl⟩ := hr k l0 List.mem_cons_self
        have hb : reloaded hashes k (.inr l0) = .inr l' := by
          unfold reloaded makeLayout
          rw [file_written hn, hl]; rfl
        simp only [List.map_cons, Ext.back, hb, List.filterMap_cons, hl]
        rw [ih]
  · intro n l h
    obtain ⟨l', hl⟩ := hr n l (mem_layoutExts.1 h)
    simp only [hl]

theorem mget_map_snd {V W : Type} (l : AMap Str V) (f : V → W) (n : Str) : mget (l.map (fun e => (e.1, f e.2))) n = (mget l n).map f := by
  induction l with
  | nil => rfl
  | cons e l ih =>
    rw [List.map_cons, mget_cons, mget_cons]
    split
    · rfl
    · exact ih

/-- the layouts in use are the same after a restart -/
theorem usedLayouts_restarted {org : Organiser} {m : ExtMgr LayoutState} (hg : GoodExts (makeLayout hashes) m.exts) (hr : Reloads hashes m)
    (hu : UsedSurvive org hashes m) : usedLayouts org hashes (restarted hashes m) = usedLayouts org hashes m := by
  obtain ⟨f, h1, h2⟩ := layoutExts_restarted hg hr
  have hk : mkeys (layoutExts (restarted hashes m)) = mkeys (layoutExts m) := by
    rw [h1]; unfold mkeys; rw [List.map_map]; rfl
  have hn : usedNames org (restarted hashes m) = usedNames org m := by
    unfold usedNames; rw [hk]; rfl
  unfold usedLayouts
  rw [hn]
  refine List.filterMap_congr ?_
  intro n hmem
  rw [h1, mget_map_snd]
  cases hg' : mget (layoutExts m) n with
  | none => rfl
  | some l =>
    have hl := mem_of_mget hg'
    obtain ⟨l', h3, h4⟩ := hu n hmem l (mem_layoutExts.1 hl)
    have := h2 n l hl
    rw [this] at h3
    cases h3
    simp only [Option.map_some, Option.some.injEq]
    funext id
    exact h4 id

end

/-! ## Commands -/

/-- What the archive is set up with: the configuration of the storage root, and what a command is. -/
structure Setup where
  hashes : Str → Option (Str → Str)
  org : Organiser
  new : NewRoot LayoutState
  w : World
  env : Env
  plain : Bool
  blank : Inv
  args : CreateArgs

/-- opening the storage root -/
def Setup.opens (S : Setup) (empty : Bool) (s : RootDisk) : Res (Str × ExtMgr LayoutState) :=
  loadStorageRoot (makeLayout S.hashes) S.new.T empty s

/-- the layouts for a manager -/
def Setup.layouts (S : Setup) (m : ExtMgr LayoutState) : List (Str → Res Str) := usedLayouts S.org S.hashes m

/-- A run of commands, each a process of its own: the storage root is made by `init` or by `create`; every later command opens
it and works with the layouts found there.  `D` says what is asked of a session and what the history is after it.  Some
commands fail or are interrupted (`broken`), if they are for ids that are not in use. -/
inductive ProcRun (S : Setup) (D : Str → Session → History → History → Prop) : RootDisk → (Str → History) → Prop where
  | init {s : RootDisk} (ok : initRoot S.new.T S.new.folders S.new.init S.new.mgr S.new.layouts ⟨[], []⟩ = (s, none)) :
      ProcRun S D s (fun _ => [])
  | create {u : Surroundings} {c : CmdLine} {files : List InFile} {H' : History} (folders : openFolders u c = .ok files)
      (args : GoodArgs S.args c.id)
      (new : objectExists (S.layouts S.new.mgr) (initRoot S.new.T S.new.folders S.new.init S.new.mgr S.new.layouts ⟨[], []⟩).1.fs c.id = .ok false)
      (clear : ¬ InExtensions (rootPath (S.layouts S.new.mgr) c.id).1) (good : D c.id (c.session files) [] H')
      (ok : (createRun S.w S.env S.plain S.blank (S.layouts S.new.mgr) S.new S.args u c ⟨[], []⟩).2.success = true) :
      ProcRun S D (createRun S.w S.env S.plain S.blank (S.layouts S.new.mgr) S.new S.args u c ⟨[], []⟩).1
        (fun i => if i = c.id then H' else [])
  | add {s : RootDisk} {H : Str → History} {m : ExtMgr LayoutState} {v : Str} (empty : Bool) (id : Str) (se : Session) (H' : History)
      (run : ProcRun S D s H) (opened : S.opens empty s = .ok (v, m))
      (args : GoodArgs S.args id) (new : objectExists (S.layouts m) s.fs id = .ok false)
      (apart : ∀ id', H id' ≠ [] → Apart (rootPath (S.layouts m) id).1 (rootPath (S.layouts m) id').1)
      (clear : ¬ InExtensions (rootPath (S.layouts m) id).1)
      (good : D id se [] H') (ok : (addCmd S.w S.env S.plain S.blank (S.layouts m) S.args s.fs id se).2 = none) :
      ProcRun S D ⟨applyOps s.fs (addCmd S.w S.env S.plain S.blank (S.layouts m) S.args s.fs id se).1, s.made⟩
        (fun i => if i = id then H' else H i)
  | update {s : RootDisk} {H : Str → History} {m : ExtMgr LayoutState} {v : Str} (empty : Bool) (id : Str) (se : Session) (H' : History)
      (run : ProcRun S D s H) (opened : S.opens empty s = .ok (v, m)) (there : H id ≠ [])
      (clear : ¬ InExtensions (rootPath (S.layouts m) id).1)
      (good : D id se (H id) H') (ok : (updateCmd S.w S.env S.plain S.blank (S.layouts m) S.args s.fs id se).2 = none) :
      ProcRun S D ⟨applyOps s.fs (updateCmd S.w S.env S.plain S.blank (S.layouts m) S.args s.fs id se).1, s.made⟩
        (fun i => if i = id then H' else H i)
  | broken {s : RootDisk} {H : Str → History} {m : ExtMgr LayoutState} {v : Str} (empty : Bool) (id : Str) (se : Session) (t : List FsOp)
      (run : ProcRun S D s H) (opened : S.opens empty s = .ok (v, m))
      (apart : ∀ id', H id' ≠ [] → Apart (rootPath (S.layouts m) id).1 (rootPath (S.layouts m) id').1)
      (clear : ¬ InExtensions (rootPath (S.layouts m) id).1)
      (crash : CrashPrefix t (addObjectByPath S.w S.env S.plain S.blank (S.layouts m) S.args s.fs id se).1) :
      ProcRun S D ⟨applyOps s.fs t, s.made⟩ H

/-- What is asked of the configuration the storage root is made with: folders that carry the names of their extensions, rules,
configurations that can be written, documents with ordinary names (see C132). -/
structure GoodSetup (S : Setup) : Prop where
  source : ∃ (report : Bool) (src : List (Str × Option (ExtCfg LayoutState))), OwnFolders src ∧ (src.map (·.1)).Nodup ∧
    (src.map (·.1)).Pairwise (fun a b => strLe a b = true) ∧ createExtensions (makeLayout S.hashes) report src = .ok (S.new.mgr, false)
  rules : S.new.mgr.sort ≠ [] ∨ S.new.mgr.exclusion ≠ []
  text : ∀ e ∈ mgrFiles S.new.mgr, S.new.T.dec (S.new.T.enc e.2) = some e.2
  docs : ∀ d ∈ S.new.init.docs, '/' ∉ d.1 ∧ '=' ∉ d.1

/-- What is asked of the layouts: all can be loaded from what they write, and those in use are the same then (see C54). -/
structure LastingLayouts (S : Setup) : Prop where
  reloads : Reloads S.hashes S.new.mgr
  survive : UsedSurvive S.org S.hashes S.new.mgr

section
variable {S : Setup} {D : Str → Session → History → History → Prop}

theorem GoodSetup.exts (G : GoodSetup S) : GoodExts (makeLayout S.hashes) S.new.mgr.exts := by
  obtain ⟨report, src, ho, hn, hs, h⟩ := G.source
  exact (created_own ho hn hs h).1

theorem GoodSetup.opens_init (G : GoodSetup S) (hr : Reloads S.hashes S.new.mgr) {s : RootDisk}
    (hi : initRoot S.new.T S.new.folders S.new.init S.new.mgr S.new.layouts ⟨[], []⟩ = (s, none)) (empty : Bool) :
    S.opens empty s = .ok (S.new.init.version, restarted S.hashes S.new.mgr) := by
  obtain ⟨report, src, ho, hn, hs, h⟩ := G.source
  exact (C132_restart_partial makeLayout_slash ho hn hs h G.rules (reloads_back G.exts hr) G.text G.docs hi).1 empty

/-- a run of processes is a run with the layouts the storage root was made with, and the storage root opens the same way -/
theorem procRun_keep (G : GoodSetup S) (L : LastingLayouts S) {s : RootDisk} {H : Str → History} (hr : ProcRun S D s H) :
    (∀ empty, S.opens empty s = .ok (S.new.init.version, restarted S.hashes S.new.mgr)) ∧
    KeepRun S.w S.env S.plain S.blank (S.layouts S.new.mgr) S.args D s.fs H := by
  have hls : S.layouts (restarted S.hashes S.new.mgr) = S.layouts S.new.mgr := usedLayouts_restarted G.exts L.reloads L.survive
  induction hr with
  | init ok => exact ⟨G.opens_init L.reloads ok, .start _⟩
  | @create u c files H' hfo hga hex hin hD hok =>
    generalize hi : initRoot S.new.T S.new.folders S.new.init S.new.mgr S.new.layouts ⟨[], []⟩ = i at *
    cases hir : i.2 with
    | some e =>
      exfalso
      unfold createRun at hok
      simp only [hfo, hi, hir] at hok
      cases hok
    | none =>
      have ho := G.opens_init (s := i.1) L.reloads (by rw [hi, ← hir])
      have hadd : addCmd S.w S.env S.plain S.blank (S.layouts S.new.mgr) S.args i.1.fs c.id (c.session files) =
          addObjectByPath S.w S.env S.plain S.blank (S.layouts S.new.mgr) S.args i.1.fs c.id (c.session files) := by
        unfold addCmd; rw [hex]
      cases hx2 : (addObjectByPath S.w S.env S.plain S.blank (S.layouts S.new.mgr) S.args i.1.fs c.id (c.session files)).2 with
      | some e =>
        exfalso
        unfold createRun at hok
        simp only [hfo, hi, hir, hx2] at hok
        cases hok
      | none =>
        have hr' : (createRun S.w S.env S.plain S.blank (S.layouts S.new.mgr) S.new S.args u c ⟨[], []⟩).1 =
            ⟨applyOps i.1.fs (addObjectByPath S.w S.env S.plain S.blank (S.layouts S.new.mgr) S.args i.1.fs c.id (c.session files)).1,
              i.1.made⟩ := by
          unfold createRun
          simp only [hfo, hi, hir, hx2]
        rw [hr']
        refine ⟨fun empty => ?_, ?_⟩
        · rw [← ho empty]
          exact C151_opens_partial _ _ empty hin (crashPrefix_refl _)
        · rw [← hadd]
          refine .add c.id _ H' (.start _) hga hex (fun _ h => absurd rfl h) hD ?_
          rw [hadd]; exact hx2
  | @add s H m v empty id se H' _ hopen hga hex hap hin hD hok ih =>
    have := (ih.1 empty).symm.trans hopen
    cases this
    rw [hls] at hex hin hok ⊢
    simp only [hls] at hap
    refine ⟨fun empty' => ?_, .add id se H' ih.2 hga hex hap hD hok⟩
    rw [← ih.1 empty']
    unfold addCmd
    rw [hex]
    exact C151_opens_partial _ _ empty' hin (crashPrefix_refl _)
  | @update s H m v empty id se H' _ hopen hid hin hD hok ih =>
    have := (ih.1 empty).symm.trans hopen
    cases this
    rw [hls] at hin hok ⊢
    refine ⟨fun empty' => ?_, .update id se H' ih.2 hid hD hok⟩
    rw [← ih.1 empty']
    unfold updateCmd
    split
    · rfl
    · rfl
    · exact C151_opens_partial _ _ empty' hin (crashPrefix_refl _)
  | @broken s H m v empty id se t _ hopen hap hin hcr ih =>
    have := (ih.1 empty).symm.trans hopen
    cases this
    rw [hls] at hin hcr
    simp only [hls] at hap
    refine ⟨fun empty' => ?_, .aside t ih.2 ?_⟩
    · rw [← ih.1 empty']
      exact C151_opens_partial _ _ empty' hin hcr
    · intro id' hid' op hop
      obtain ⟨op', h1, h2⟩ := hcr.path hop
      obtain ⟨p, hp⟩ := byPath_under h1
      cases hs : stripFolder (rootPath (S.layouts S.new.mgr) id').1 op.path with
      | none => rfl
      | some q => exact absurd ((hp.symm.trans h2).trans (stripFolder_eq_some.1 hs)) (under_apart (hap id' hid') p q)

/-- **C180, the part that holds.** Whatever commands, each in a process of its own, were run on the storage root: the next command
opens it, and with the layouts it finds there every object opens under its id, is valid, and every version it ever had comes
out with exactly the files it was given.  Missing: layouts that do not survive (C54), configurations without rules or with
folders of other names (C96, C132), objects in the folder of the extensions (C151). -/
theorem C180_processes_partial {h : Bytes → Str} (G : GoodSetup S) (L : LastingLayouts S) (hc : Codec S.w) (hx : HexHash S.w)
    (hL : LowerHash S.w) (ht : ∀ t, S.w.time (S.w.time t) = S.w.time t) (hh : S.w.hash S.args.alg = some h) {s : RootDisk}
    {H : Str → History} (hr : ProcRun S (AutoSession S.w (Deposit S.w h S.args)) s H) (empty : Bool) :
    ∃ m, S.opens empty s = .ok (S.new.init.version, m) ∧
      ∀ id, H id ≠ [] → Retrieved S.w S.env S.plain S.blank (S.layouts m) s.fs id (H id) := by
  obtain ⟨h1, h2⟩ := procRun_keep G L hr
  refine ⟨_, h1 empty, fun id hid => ?_⟩
  rw [show S.layouts (restarted S.hashes S.new.mgr) = S.layouts S.new.mgr from usedLayouts_restarted G.exts L.reloads L.survive]
  exact C175_automated_archive_partial hc hx hL ht hh h2 hid

end

/-- **C180, in full** (false): whatever layouts are configured. -/
def C180_full : Prop := ∀ (S : Setup) (h : Bytes → Str) (s : RootDisk) (H : Str → History) (empty : Bool), GoodSetup S → S.hashes [] = none →
  Codec S.w → HexHash S.w → LowerHash S.w → (∀ t, S.w.time (S.w.time t) = S.w.time t) → S.w.hash S.args.alg = some h →
  ProcRun S (AutoSession S.w (Deposit S.w h S.args)) s H →
  ∃ m, S.opens empty s = .ok (S.new.init.version, m) ∧
    ∀ id, H id ≠ [] → Retrieved S.w S.env S.plain S.blank (S.layouts m) s.fs id (H id)

/-! ## Layouts that do not last -/

theorem scanFolders_panics {β : Type} {make : Str → Option β → Option β} {l : List (Str × Option (ExtCfg β))} {e : Str × Option (ExtCfg β)}
    (he : e ∈ l) (h : scanFolder make e = none) : scanFolders make false l = .error (.panic "nil pointer dereference") := by
  induction l with
  | nil => cases he
  | cons x l ih =>
    unfold scanFolders
    cases hx : scanFolder make x with
    | none => rfl
    | some r =>
      rcases List.mem_cons.1 he with rfl | he
      · rw [h] at hx; cases hx
      · simp only
        rw [ih he]; rfl

section
variable {S : Setup} {D : Str → Session → History → History → Prop}

theorem init_crash (G : GoodSetup S) {s : RootDisk}
    (hi : initRoot S.new.T S.new.folders S.new.init S.new.mgr S.new.layouts ⟨[], []⟩ = (s, none))
    (hr : ¬ Reloads S.hashes S.new.mgr) (empty : Bool) : S.opens empty s = .error (.panic "nil pointer dereference") := by
  unfold Reloads at hr
  push Not at hr
  obtain ⟨n, l, hmem, hl⟩ := hr
  obtain ⟨report, src, ho, hn, hs, h⟩ := G.source
  unfold initRoot at hi
  split at hi
  · rename_i hv
    rw [if_pos ⟨rfl, rfl⟩] at hi
    have hok := initOk_of (a := S.new.init) hv G.docs makeLayout_slash ho hn hs h G.rules
    obtain ⟨h1, h2, h3, h4⟩ := init_state hok (layouts := S.new.layouts) G.text rfl
    cases hi
    unfold Setup.opens
    rw [load_configs hok h1 h2 h3 h4]
    obtain ⟨l0, h5, hname⟩ := good_layout hok.exts hmem
    cases h5
    have hne : n ≠ nmInitial ∧ n ≠ nmManager := by
      obtain ⟨n', s', he, ha, hb, _⟩ := hok.exts.others _ hmem
      cases he
      exact ⟨ha, hb⟩
    have hfile : (n, some (Ext.other n (.inr l) : Ext LayoutState).cfg) ∈ readDirs (storeExts S.new.folders S.new.mgr) := by
      rw [(store_perm hok.exts S.new.folders).mem_iff]
      refine List.mem_append_left _ (List.mem_map.2 ⟨(n, (Ext.other n (.inr l) : Ext LayoutState).cfg), ?_, rfl⟩)
      unfold mgrFiles
      refine List.mem_append_left _ (List.mem_map.2 ⟨Ext.other n (.inr l), List.mem_append_left _ hmem, rfl⟩)
    have hnone : makeLayout S.hashes n (some (.inr l)) = none := by
      unfold makeLayout
      rw [file_written hname]
      cases hll : loadLayout S.hashes (writeConfig l) with
      | error e => rfl
      | ok l' => exact absurd hll (hl l')
    have hscan : scanFolder (makeLayout S.hashes) (n, some (Ext.other n (.inr l) : Ext LayoutState).cfg) = none := by
      unfold scanFolder createExt
      simp only [Option.bind_some, Ext.cfg, if_neg hne.1, if_neg hne.2, hnone, Option.map_none]
    unfold createExtensions
    rw [scanFolders_panics hfile hscan]
    rfl
  · cases hi

/-- **C180, what happens otherwise**: if one of the layouts, used or not, cannot be loaded from what it writes (by C54 these are the two
hash layouts and pairtree, whatever their configuration), then after a successful `init` or `create` every command on the
storage root crashes. -/
theorem C180_crash (G : GoodSetup S) (hr : ¬ Reloads S.hashes S.new.mgr) {s : RootDisk} {H : Str → History} (hp : ProcRun S D s H)
    (empty : Bool) : S.opens empty s = .error (.panic "nil pointer dereference") := by
  induction hp generalizing empty with
  | init ok => exact init_crash G ok hr empty
  | @create u c files H' hfo hga hex hin hD hok =>
    generalize hi : initRoot S.new.T S.new.folders S.new.init S.new.mgr S.new.layouts ⟨[], []⟩ = i at *
    cases hir : i.2 with
    | some e =>
      exfalso
      unfold createRun at hok
      simp only [hfo, hi, hir] at hok
      cases hok
    | none =>
      rw [← init_crash G (s := i.1) (by rw [hi, ← hir]) hr empty]
      unfold createRun
      simp only [hfo, hi, hir]
      split <;> exact C151_opens_partial _ _ empty hin (crashPrefix_refl _)
  | add e _ _ _ _ ho _ _ _ _ _ _ ih => exact absurd ((ih e).symm.trans ho) (by simp)
  | update e _ _ _ _ ho _ _ _ _ ih => exact absurd ((ih e).symm.trans ho) (by simp)
  | broken e _ _ _ _ ho _ _ _ ih => exact absurd ((ih e).symm.trans ho) (by simp)

/-- **C180, exact**: a storage root made by `init` can be opened by the next command if and only if each of its layouts can be loaded
from the configuration it writes. -/
theorem C180_opens_iff (G : GoodSetup S) {s : RootDisk}
    (hi : initRoot S.new.T S.new.folders S.new.init S.new.mgr S.new.layouts ⟨[], []⟩ = (s, none)) (empty : Bool) :
    (∃ x, S.opens empty s = .ok x) ↔ Reloads S.hashes S.new.mgr := by
  constructor
  · rintro ⟨x, hx⟩
    by_contra hr
    rw [init_crash G hi hr empty] at hx
    cases hx
  · intro hr
    exact ⟨_, G.opens_init hr hi empty⟩

theorem usedLayouts_one {org : Organiser} {hashes : Str → Option (Str → Str)} {m : ExtMgr LayoutState} {n : Str} {l : Layout}
    (hn : (mkeys (layoutExts m)).Nodup) (hu : usedNames org m = [n]) (h : Ext.other n (.inr l) ∈ m.exts) :
    usedLayouts org hashes m = [layoutPath hashes l] := by
  unfold usedLayouts
  rw [hu, List.filterMap_cons, mget_of_mem hn (mem_layoutExts.2 h)]
  rfl

theorem usedLayouts_one_restarted (G : GoodSetup S) (hr : Reloads S.hashes S.new.mgr) {n : Str} {l : Layout}
    (hu : usedNames S.org S.new.mgr = [n]) (h : Ext.other n (.inr l) ∈ S.new.mgr.exts) :
    ∃ l', loadLayout S.hashes (writeConfig l) = .ok l' ∧ S.layouts (restarted S.hashes S.new.mgr) = [layoutPath S.hashes l'] := by
  obtain ⟨f, h1, h2⟩ := layoutExts_restarted G.exts hr
  have hk : mkeys (layoutExts (restarted S.hashes S.new.mgr)) = mkeys (layoutExts S.new.mgr) := by
    rw [h1]; unfold mkeys; rw [List.map_map]; rfl
  have hn : usedNames S.org (restarted S.hashes S.new.mgr) = [n] := by
    rw [← hu]; unfold usedNames; rw [hk]; rfl
  refine ⟨f l, h2 n l (mem_layoutExts.2 h), ?_⟩
  refine usedLayouts_one (by rw [hk]; exact layoutExts_nodup G.exts) hn (mem_layoutExts.1 ?_)
  rw [h1]
  exact List.mem_map.2 ⟨(n, l), mem_layoutExts.2 h, rfl⟩

/-- **C180, what happens otherwise**: with the flat layout that omits a prefix as the only layout in use, the command that makes the
storage root puts an object in the folder without the prefix; every later command looks for it in the folder named by the
whole id. -/
theorem C180_omit (G : GoodSetup S) (hr : Reloads S.hashes S.new.mgr) {n d : Str} (hu : usedNames S.org S.new.mgr = [n])
    (h : Ext.other n (.inr (.flatOmit d)) ∈ S.new.mgr.exts) (id : Str) :
    rootPath (S.layouts S.new.mgr) id = (if layout0006 d id = [] then id else layout0006 d id, false) ∧
    rootPath (S.layouts (restarted S.hashes S.new.mgr)) id = (id, false) := by
  obtain ⟨l', h1, h2⟩ := usedLayouts_one_restarted G hr hu h
  have h3 : S.layouts S.new.mgr = [layoutPath S.hashes (.flatOmit d)] := usedLayouts_one (layoutExts_nodup G.exts) hu h
  rw [h2, h3]
  refine ⟨rfl, ?_⟩
  have : l' = .flatOmit [] := by
    have e : loadLayout S.hashes (writeConfig (.flatOmit d)) = .ok (.flatOmit []) := by rfl
    rw [e] at h1; cases h1; rfl
  subst this
  simp only [rootPath, layoutPath, C49_empty_delimiter, if_true]

/-- **C180, what happens otherwise**: with the n-tuple layout that omits a prefix as the only layout in use, no later command finds a
folder for any object. -/
theorem C180_tuple_omit (G : GoodSetup S) (hr : Reloads S.hashes S.new.mgr) {n : Str} {c : OmitCfg} (hu : usedNames S.org S.new.mgr = [n])
    (h : Ext.other n (.inr (.tupleOmit c)) ∈ S.new.mgr.exts) (fs : FS) (id : Str) :
    objectExists (S.layouts (restarted S.hashes S.new.mgr)) fs id = .error (.error "cannot build storage path") := by
  obtain ⟨l', h1, h2⟩ := usedLayouts_one_restarted G hr hu h
  rw [h2]
  have : l' = .tupleOmit ⟨[], 0, 0, [], false⟩ := by
    have e : loadLayout S.hashes (writeConfig (.tupleOmit c)) = .ok (.tupleOmit ⟨[], 0, 0, [], false⟩) := by rfl
    rw [e] at h1; cases h1; rfl
  subst this
  unfold objectExists
  simp only [rootPath, layoutPath, layout0007, if_true]

end

/-! ## Cases -/

/-- sorting by rank, extensions of the same rank in the order they had -/
def rankSort (list l : List Str) : List Str := sortBy (fun a b => decide (rank list a ≤ rank list b)) l

theorem rankSort_sorted (list l : List Str) : SortedBy id list l (rankSort list l) := by
  refine ⟨sortBy_perm _ l, ?_⟩
  have := sortBy_sorted (fun a b => decide (rank list a ≤ rank list b)) (fun a b => by simpa using Nat.le_total _ _)
    (fun a b c h1 h2 => by simp only [decide_eq_true_eq] at *; exact h1.trans h2) l
  exact this.imp (fun h => by simpa using h)

def excludeSorted : List (List Str) → List Str → List Str
  | [], l => l
  | g :: gs, l => excludeSorted gs (keepFirst id g false (rankSort g l))

theorem excludeSorted_excluded (gs : List (List Str)) (l : List Str) : ExcludedAll id gs l (excludeSorted gs l) := by
  induction gs generalizing l with
  | nil => exact .nil l
  | cons g gs ih => exact .cons ⟨_, rankSort_sorted g l, rfl⟩ (ih _)

/-- there is an organiser -/
def stableOrg : Organiser where
  run ex so l :=
    if l = [] then []
    else
      let m := match ex with
        | none => l
        | some gs => excludeSorted gs l
      match so with
      | none => m
      | some s => rankSort s m
  organized ex so l := by
    unfold Organized
    split
    · rfl
    · refine ⟨match ex with | none => l | some gs => excludeSorted gs l, ?_, ?_⟩
      · cases ex with
        | none => rfl
        | some gs => exact excludeSorted_excluded gs l
      · cases so with
        | none => rfl
        | some s => exact rankSort_sorted s _

/-- a codec for given configurations: each is written as one byte -/
def indexText {β : Type} [DecidableEq β] (l : List (ExtCfg β)) : CfgText β where
  enc c := [UInt8.ofNat (l.idxOf c)]
  dec b := match b with
    | [x] => l[x.toNat]?
    | _ => none

/-- the program knows one digest -/
def prHashes : Str → Option (Str → Str) := fun n => if n = "sha512".toList then some (fun s => 'd' :: 'e' :: s) else none

/-- a folder of extensions with layouts, rules and `initial` -/
def prSrc (l : List CfgFile) : List (Str × Option (ExtCfg LayoutState)) :=
  l.map (fun f => (f.name, some { name := f.name, rest := some (.inl f) })) ++
    [(nmManager, some { name := nmManager, sort := sciSort, exclusion := sciExcl }),
     (nmInitial, some { name := nmInitial, extension := some nmManager })]

/-- what is made of it -/
def prMgr (l : List Layout) : ExtMgr LayoutState :=
  ⟨sciSort, sciExcl, l.map (fun x => .other (writeConfig x).name (.inr x)), (nmInitial, nmManager)⟩

def prNew (l : List Layout) : NewRoot LayoutState :=
  ⟨indexText ((mgrFiles (prMgr l)).map (·.2)), true, ⟨"1.1".toList, [("ocfl_spec.md".toList, [1, 2])], fun _ => [3]⟩, prMgr l, []⟩

noncomputable def prSetup (l : List Layout) : Setup :=
  ⟨prHashes, stableOrg, prNew l, exKeep, exEnv, true, blankInv [] [], exArgs⟩

/-- the layouts of /repo/data/defaultextensions/storageroot -/
def prDefFiles : List CfgFile :=
  [⟨nmFlatOmit, [], [(kDelim, ":".toList)], []⟩,
   ⟨nmDirectClean, [(kMaxPath, 32000), (kMaxSeg, 127)], [(kRepl, "_".toList), (kWhite, " ".toList)], []⟩,
   ⟨nmPathDirect, [], [], []⟩]

def prDefClean : Layout := .directClean "sha512".toList (readDC ⟨nmDirectClean, [(kMaxPath, 32000), (kMaxSeg, 127)],
  [(kRepl, "_".toList), (kWhite, " ".toList)], []⟩)

def prDef : List Layout := [.flatOmit ":".toList, prDefClean, .pathDirect]

/-- the hashed layout alone -/
def prHashFiles : List CfgFile := [⟨nmHashed, [(kTupleSize, 1), (kNumber, 2)], [(kAlg, "sha512".toList)], []⟩]

def prHash : List Layout := [.hashed "sha512".toList ⟨1, 2, false⟩]

/-- the layout that omits a prefix alone -/
def prOmitFiles : List CfgFile := [⟨nmFlatOmit, [], [(kDelim, ":".toList)], []⟩]

def prOmit : List Layout := [.flatOmit ":".toList]

theorem prSetup_good {l : List Layout} {fl : List CfgFile} (h1 : ((prSrc fl).map (·.1)).Nodup)
    (h2 : ((prSrc fl).map (·.1)).Pairwise (fun a b => strLe a b = true))
    (h3 : createExtensions (makeLayout prHashes) false (prSrc fl) = .ok (prMgr l, false))
    (h4 : ∀ e ∈ mgrFiles (prMgr l), (prNew l).T.dec ((prNew l).T.enc e.2) = some e.2) : GoodSetup (prSetup l) := by
  refine ⟨⟨false, prSrc fl, ?_, h1, h2, h3⟩, Or.inl (by decide : sciSort ≠ []), h4, ?_⟩
  · intro f c hc
    unfold prSrc at hc
    rcases List.mem_append.1 hc with hc | hc
    · obtain ⟨x, _, hx⟩ := List.mem_map.1 hc
      cases hx; rfl
    · simp only [List.mem_cons, List.not_mem_nil, or_false] at hc
      rcases hc with hc | hc <;> cases hc <;> rfl
  · intro d hd
    have : ∀ d ∈ [("ocfl_spec.md".toList, ([1, 2] : Bytes))], '/' ∉ d.1 ∧ '=' ∉ d.1 := by decide
    exact this d hd

theorem prDef_good : GoodSetup (prSetup prDef) := prSetup_good (fl := prDefFiles) (by decide) (by decide) (by decide) (by decide)
theorem prHash_good : GoodSetup (prSetup prHash) := prSetup_good (fl := prHashFiles) (by decide) (by decide) (by decide) (by decide)
theorem prOmit_good : GoodSetup (prSetup prOmit) := prSetup_good (fl := prOmitFiles) (by decide) (by decide) (by decide) (by decide)

theorem prDef_lasting : LastingLayouts (prSetup prDef) := by
  constructor
  · intro n l h
    have h : Ext.other n (.inr l) ∈ (prMgr prDef).exts := h
    simp only [prMgr, prDef, List.map_cons, List.map_nil, List.mem_cons, List.not_mem_nil, or_false] at h
    rcases h with h | h | h <;> cases h
    · exact ⟨.flatOmit [], by decide⟩
    · exact ⟨prDefClean, by decide⟩
    · exact ⟨.pathDirect, by decide⟩
  · intro n hn l h
    have h : Ext.other n (.inr l) ∈ (prMgr prDef).exts := h
    have hn : n ∈ usedNames stableOrg (prMgr prDef) := hn
    rw [show usedNames stableOrg (prMgr prDef) = [nmDirectClean] by decide, List.mem_singleton] at hn
    subst hn
    simp only [prMgr, prDef, List.map_cons, List.map_nil, List.mem_cons, List.not_mem_nil, or_false] at h
    have hd : (writeConfig prDefClean).name = nmDirectClean := rfl
    rcases h with h | h | h
    · exact absurd (congrArg Ext.name h) (show nmDirectClean ≠ nmFlatOmit by decide)
    · cases h
      exact C54_survives_partial (f := writeConfig prDefClean) (by decide) (Or.inr (Or.inr ⟨_, _, rfl⟩))
    · exact absurd (congrArg Ext.name h) (show nmDirectClean ≠ nmPathDirect by decide)

/-- what is asked of the session of `create`, and of `add` for `b` -/
theorem pr_session (id : Str) (hid : id = "a".toList ∨ id = "b".toList) :
    AutoSession exKeep (Deposit exKeep rtHash exArgs) id (rtSession rtFiles) [] (histOf [replList rtFiles []]) := by
  refine ⟨true, rtFiles, deposit_of_list (ll := []) (ar_fit1 _ hid) ar_placed1, ?_⟩
  have h0 : ([] : History) ++ [After exKeep (rtSession rtFiles).first rtFiles (History.last [])] = histOf [replList rtFiles []] :=
    histOf_snoc false [] rtFiles
  rw [h0]
  exact .nil _

/-- the storage root after `create` of `a` -/
noncomputable def prDisk (l : List Layout) : RootDisk :=
  (createRun exKeep exEnv true (blankInv [] []) ((prSetup l).layouts (prMgr l)) (prNew l) exArgs rtFolders cliRt ⟨[], []⟩).1

theorem pr_create {l : List Layout}
    (h1 : objectExists ((prSetup l).layouts (prMgr l)) (initRoot (prNew l).T true (prNew l).init (prMgr l) [] ⟨[], []⟩).1.fs "a".toList = .ok false)
    (h2 : ¬ InExtensions (rootPath ((prSetup l).layouts (prMgr l)) "a".toList).1)
    (h3 : (createRun exKeep exEnv true (blankInv [] []) ((prSetup l).layouts (prMgr l)) (prNew l) exArgs rtFolders cliRt ⟨[], []⟩).2.success = true) :
    ProcRun (prSetup l) (AutoSession exKeep (Deposit exKeep rtHash exArgs)) (prDisk l)
      (fun i => if i = "a".toList then histOf [replList rtFiles []] else []) :=
  ProcRun.create (S := prSetup l) rt_open exArgs_good h1 h2 (pr_session _ (Or.inl rfl)) h3

theorem outside_of {f : Str} (h : f.head? ≠ some 'e') : ¬ InExtensions f := by
  rintro (rfl | ⟨r, rfl⟩)
  · exact h rfl
  · exact h rfl

theorem prDef_layouts : (prSetup prDef).layouts (prMgr prDef) = [layoutPath prHashes prDefClean] :=
  usedLayouts_one (by decide) (by decide : usedNames stableOrg (prMgr prDef) = [nmDirectClean])
    (by show _ ∈ (prMgr prDef).exts; simp only [prMgr, prDef]; exact List.mem_cons_of_mem _ List.mem_cons_self)

theorem prDef_root : rootPath [layoutPath prHashes prDefClean] "a".toList = ("a".toList, false) := by decide +kernel

theorem prDef_run : ProcRun (prSetup prDef) (AutoSession exKeep (Deposit exKeep rtHash exArgs)) (prDisk prDef)
    (fun i => if i = "a".toList then histOf [replList rtFiles []] else []) :=
  pr_create (by rw [prDef_layouts]; decide +kernel)
    (by rw [prDef_layouts, prDef_root]; exact outside_of (by decide)) (by rw [prDef_layouts]; decide +kernel)

/-- the hypotheses of C180 are met by the default configuration: `create` in one process, and then another -/
theorem pr_found (empty : Bool) : ∃ m, (prSetup prDef).opens empty (prDisk prDef) = .ok ("1.1".toList, m) ∧
    Retrieved exKeep exEnv true (blankInv [] []) ((prSetup prDef).layouts m) (prDisk prDef).fs "a".toList
      (histOf [[("c/d".toList, [1, 2]), ("e".toList, [7]), ("f".toList, [1, 2])]]) := by
  obtain ⟨m, h1, h2⟩ := C180_processes_partial prDef_good prDef_lasting (codecWorld_codec _) (codecWorld_hex _) exKeep_lower (fun _ => rfl)
    rtHash_eq prDef_run empty
  have h3 := h2 "a".toList (by rw [if_pos rfl]; exact List.cons_ne_nil _ _)
  rw [if_pos rfl] at h3
  exact ⟨m, h1, h3⟩

/-- … and a third, which adds `b` -/
example : ∃ s, ProcRun (prSetup prDef) (AutoSession exKeep (Deposit exKeep rtHash exArgs)) s
    (fun i => if i = "b".toList then histOf [replList rtFiles []] else if i = "a".toList then histOf [replList rtFiles []] else []) := by
  have ho := (procRun_keep prDef_good prDef_lasting prDef_run).1 true
  have hls : (prSetup prDef).layouts (restarted prHashes (prMgr prDef)) = [layoutPath prHashes prDefClean] :=
    (usedLayouts_restarted prDef_good.exts prDef_lasting.reloads prDef_lasting.survive).trans prDef_layouts
  have hd : prDisk prDef = (createRun exKeep exEnv true (blankInv [] []) [layoutPath prHashes prDefClean] (prNew prDef) exArgs rtFolders cliRt ⟨[], []⟩).1 := by
    unfold prDisk; rw [prDef_layouts]
  have hb : rootPath [layoutPath prHashes prDefClean] "b".toList = ("b".toList, false) := by decide +kernel
  refine ⟨_, ProcRun.add (S := prSetup prDef) true "b".toList (rtSession rtFiles) _ prDef_run ho exArgs_good_b ?_ ?_ ?_ (pr_session _ (Or.inr rfl)) ?_⟩
  · show objectExists ((prSetup prDef).layouts (restarted prHashes (prMgr prDef))) _ _ = _
    rw [hls, hd]; decide +kernel
  · intro id' hid'
    have : id' = "a".toList := by
      by_contra h
      exact hid' (if_neg h)
    subst this
    show Apart (rootPath ((prSetup prDef).layouts (restarted prHashes (prMgr prDef))) _).1
      (rootPath ((prSetup prDef).layouts (restarted prHashes (prMgr prDef))) _).1
    rw [hls, hb, prDef_root]
    exact ⟨by decide, fun r h => absurd (congrArg List.length h) (by simp [under]), fun r h => absurd (congrArg List.length h) (by simp [under])⟩
  · show ¬ InExtensions (rootPath ((prSetup prDef).layouts (restarted prHashes (prMgr prDef))) _).1
    rw [hls, hb]; exact outside_of (by decide)
  · show (addCmd exKeep exEnv true (blankInv [] []) ((prSetup prDef).layouts (restarted prHashes (prMgr prDef))) exArgs (prDisk prDef).fs _ _).2 = none
    rw [hls, hd]; decide +kernel

theorem prHash_layouts : (prSetup prHash).layouts (prMgr prHash) = [layoutPath prHashes (.hashed "sha512".toList ⟨1, 2, false⟩)] :=
  usedLayouts_one (by decide) (by decide : usedNames stableOrg (prMgr prHash) = [nmHashed])
    (by show _ ∈ (prMgr prHash).exts; simp only [prMgr, prHash]; exact List.mem_cons_self)

theorem prHash_root : rootPath [layoutPath prHashes (.hashed "sha512".toList ⟨1, 2, false⟩)] "a".toList = ("d/e/dea".toList, false) := by
  decide +kernel

theorem prHash_run : ProcRun (prSetup prHash) (AutoSession exKeep (Deposit exKeep rtHash exArgs)) (prDisk prHash)
    (fun i => if i = "a".toList then histOf [replList rtFiles []] else []) :=
  pr_create (by rw [prHash_layouts]; decide +kernel)
    (by rw [prHash_layouts, prHash_root]; exact outside_of (by decide)) (by rw [prHash_layouts]; decide +kernel)

/-- **C180 is violated**: with the hashed layout `create` reports success, and no later command can open the storage root. -/
theorem C180_full_fails : ¬ C180_full := by
  intro hf
  obtain ⟨m, h1, _⟩ := hf (prSetup prHash) rtHash _ _ true prHash_good (by decide) (codecWorld_codec _) (codecWorld_hex _) exKeep_lower
    (fun _ => rfl) rtHash_eq prHash_run
  have hr : ¬ Reloads (prSetup prHash).hashes (prSetup prHash).new.mgr := by
    intro h
    obtain ⟨l', hl⟩ := h nmHashed (.hashed "sha512".toList ⟨1, 2, false⟩) (by show _ ∈ (prMgr prHash).exts; exact List.mem_cons_self)
    have := ((C54_lost prHashes (by decide)).2.2.2.1 "sha512".toList ⟨1, 2, false⟩).symm.trans hl
    cases this
  rw [C180_crash prHash_good hr prHash_run true] at h1
  cases h1

theorem prOmit_reloads : Reloads (prSetup prOmit).hashes (prSetup prOmit).new.mgr := by
  intro n l h
  have h : Ext.other n (.inr l) ∈ (prMgr prOmit).exts := h
  simp only [prMgr, prOmit, List.map_cons, List.map_nil, List.mem_cons, List.not_mem_nil, or_false] at h
  cases h
  exact ⟨.flatOmit [], by decide⟩

/-- with the layout that omits a prefix the folder of the object `urn:a` changes with the next command -/
theorem C180_omit_case : rootPath ((prSetup prOmit).layouts (prMgr prOmit)) "urn:a".toList = ("a".toList, false) ∧
    rootPath ((prSetup prOmit).layouts (restarted prHashes (prMgr prOmit))) "urn:a".toList = ("urn:a".toList, false) := by
  have h := C180_omit prOmit_good prOmit_reloads (n := nmFlatOmit) (d := ":".toList) (by show usedNames stableOrg (prMgr prOmit) = _; decide)
    (by show _ ∈ (prMgr prOmit).exts; exact List.mem_cons_self) "urn:a".toList
  rw [show layout0006 ":".toList "urn:a".toList = "a".toList by decide, if_neg (by decide)] at h
  exact h

end Gocfl
