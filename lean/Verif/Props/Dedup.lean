import Verif.Props.Create
import Verif.Props.Rounds
import Verif.Props.ManifestOnce
import Verif.Props.MigrationOnce

/-! # C176: deduplication — content is stored once if this is asked for, and each file by itself if not -/

namespace Gocfl

/-! ## What is meant -/

/-- every content is stored once: two content files of the object with the same bytes are one file -/
def StoredOnce (fs : FS) (inv : Inv) : Prop :=
  ∀ c c' b, Listed inv c → Listed inv c' → mget fs c = some b → mget fs c' = some b → c = c'

/-- the manifest has one content path for each digest, and digests are in lower case -/
def SingleCopies (inv : Inv) : Prop := ∀ d m, (d, m) ∈ inv.manifest → m.length ≤ 1 ∧ toLower d = d

/-- What was asked for, on the command line or in the configuration file: `add` and `create` look for duplicates if told so,
`update` unless told not to. -/
def AsksOnce (c : Command) (file : ConfFile) (g : Given) : Prop :=
  match c with
  | .update => mget g.on "no-deduplicate".toList ≠ some true ∧ mget file.on .updDeduplicate ≠ some false
  | _ => mget g.on "deduplicate".toList = some true ∨ mget file.on .addDeduplicate = some true

/-- a call that looks for duplicates, or stores no content -/
def Call.Dedup : Call → Prop
  | .add _ _ _ dup => dup = true
  | .reader _ _ _ => False
  | _ => True

/-! ## Lemmas -/

theorem singleCopies_congr {i j : Inv} (h : j.manifest = i.manifest) (hi : SingleCopies i) : SingleCopies j := by
  unfold SingleCopies; rw [h]; exact hi

theorem singleCopies_withInv {o : Obj} {r : Res Inv} (hr : ∀ i, r = .ok i → i.manifest = o.inv.manifest) (h : SingleCopies o.inv) :
    SingleCopies (withInv o r).obj.inv := by
  unfold withInv
  cases r with
  | error e => exact h
  | ok i => exact singleCopies_congr (hr i rfl) h

theorem singleCopies_ifExists {o : Obj} {p d : Str} {f : Inv → Res Inv} (hm : ∀ i j, f i = .ok j → j.manifest = i.manifest)
    (h : SingleCopies o.inv) : SingleCopies (objIfExists o p d f).obj.inv := by
  unfold objIfExists
  split
  · exact h
  · split
    · exact h
    · exact h
    · exact singleCopies_withInv (fun i hi => hm _ _ hi) h

theorem singleCopies_echo {w : World} {o : Obj} (h : SingleCopies o.inv) :
    SingleCopies (if o.echo then objEcho w o else ok o).obj.inv := by
  split
  · unfold objEcho
    split
    · exact h
    · exact singleCopies_withInv (o := { o with updateFiles := slicesCompact (sortStr o.updateFiles) })
        (fun i hi => echoDelete_manifest hi) h
  · exact h

/-- a file that is stored because its digest is not known -/
theorem singleCopies_addReader {w : World} {o : Obj} {q mp : Str} {data : Bytes} {h : Bytes → Str} (hL : LowerHash w)
    (hh : w.hash o.inv.digestAlg = some h) (hs : SingleCopies o.inv) (hd : mgetD o.inv.manifest (h data) = []) :
    SingleCopies (addReader w o [q] mp data).obj.inv := by
  unfold addReader
  simp only
  split
  · exact hs
  · rename_i cs hcs
    unfold withInv
    cases hf : addFile o.inv [q] mp cs with
    | error e => exact hs
    | ok i =>
      obtain ⟨dig, h1, h2⟩ := addFile_manifest hf
      obtain ⟨f, h3, rfl⟩ := checksums_get hcs h1
      rw [hh] at h3; cases h3
      have e : i.manifest = manAdd o.inv.manifest mp (toLower (h data)) := h2
      rw [hL _ _ _ hh] at e
      intro d m hm
      show m.length ≤ 1 ∧ toLower d = d
      have hm : (d, m) ∈ i.manifest := hm
      rw [e] at hm
      unfold manAdd at hm
      split at hm
      · rcases mem_mset_of hm with g | g
        · cases g
          exact ⟨by simp [hd], hL _ _ _ hh⟩
        · exact hs d m g
      · exact hs d m hm

theorem singleCopies_call {w : World} {o : Obj} {h : Bytes → Str} (hx : HexHash w) (hL : LowerHash w)
    (hh : w.hash o.inv.digestAlg = some h) (hs : SingleCopies o.inv) (c : Call) (hc : c.Dedup) :
    SingleCopies (runCall w o c).obj.inv := by
  cases c with
  | add p a data dup =>
    have hc : dup = true := hc
    subst hc
    show SingleCopies (objAdd w o p a data true).obj.inv
    unfold objAdd
    split
    · exact hs
    · split
      · exact hs
      · rename_i names mp hb
        obtain ⟨q, rfl⟩ : ∃ q, names = [q] := by
          obtain ⟨hn, _⟩ := buildNames_ok hb
          have := mapM_length hn
          exact List.length_eq_one_iff.1 this
        simp only [hh, if_true]
        unfold addChecked
        split
        · exact hs
        · exact hs
        · split
          · exact singleCopies_withInv (o := { o with updateFiles := o.updateFiles ++ [[q].headD []] })
              (fun i hi => copyFile_manifest hi) hs
          · rename_i hg
            refine singleCopies_addReader (o := { o with updateFiles := o.updateFiles ++ [[q].headD []] }) hL hh hs ?_
            have hg := not_not.1 hg
            unfold getDuplicates at hg
            rwa [if_neg (hx _ _ _ hh).1] at hg
  | reader fs a data => exact hc.elim
  | delete p d => exact singleCopies_ifExists (fun i j h => deleteFile_manifest h) hs
  | rename a b d => exact singleCopies_ifExists (fun i j h => renameFile_manifest h) hs
  | beginArea => exact hs
  | endArea =>
    unfold runCall
    exact andThen_good (P := fun o => SingleCopies o.inv) (singleCopies_echo hs) (fun h => h)
  | ext n d => exact hs

theorem single_inv {w : World} {alg : Str} {h : Bytes → Str} (hx : HexHash w) (hL : LowerHash w) (hh : w.hash alg = some h) :
    SessionInv w Call.Dedup (fun o => o.inv.digestAlg = alg ∧ SingleCopies o.inv) where
  call o c hc hs := ⟨(runCall_step (U := fun _ _ => True) c (fun _ _ => trivial)).headOnly.alg.trans hs.1,
    singleCopies_call hx hL (by rw [hs.1]; exact hh) hs.2 c hc⟩
  echo o hs := ⟨(echoIf_step (w := w) (U := fun _ _ => True)).headOnly.alg.trans hs.1, singleCopies_echo hs.2⟩
  open_ o e i m u a t hs hv := ⟨(newVersion_frame hv).2.2.1.trans hs.1, singleCopies_congr (newVersion_frame hv).2.2.2.2.2.1 hs.2⟩
  openErr o e hs := hs
  store o v r hs := by rw [storeInventory_trace.1]; exact hs
  ext o n d hs := hs

/-- **C176, every session** whose calls look for duplicates, whether it succeeds or not, with the versions extensions ask for:
the manifest has one content path for each digest. -/
theorem C176_manifest {w : World} {inv : Inv} {s : Session} {h : Bytes → Str} (hx : HexHash w) (hL : LowerHash w)
    (hh : w.hash inv.digestAlg = some h) (hs : SingleCopies inv) (hd : ∀ c ∈ s.calls, c.Dedup) :
    SingleCopies (session w inv s).obj.inv :=
  ((single_inv hx hL hh).session (inv := inv) (s := s) ⟨rfl, hs⟩ hd).2

/-- content is stored once if the manifest has one content path for each digest -/
theorem storedOnce_of {w : World} {fs : FS} {inv : Inv} (hk : (mkeys inv.manifest).Nodup) (hm : DiskMatches w fs inv)
    (hs : SingleCopies inv) : StoredOnce fs inv := by
  rintro c c' b ⟨d, m, h1, h2⟩ ⟨d', m', h3, h4⟩ h5 h6
  obtain ⟨b1, f1, k1, k2, k3⟩ := hm.content d m c h1 h2
  obtain ⟨b2, f2, g1, g2, g3⟩ := hm.content d' m' c' h3 h4
  rw [h5] at k1; cases k1
  rw [h6] at g1; cases g1
  rw [k2] at g2; cases g2
  obtain ⟨l1, e1⟩ := hs d m h1
  obtain ⟨_, e2⟩ := hs d' m' h3
  have hd : d = d' := by rw [← e1, ← e2, ← k3, ← g3]
  subst hd
  have := (mget_of_mem hk h1).symm.trans (mget_of_mem hk h3)
  cases this
  match m, l1, h2, h4 with
  | [x], _, h2, h4 => rw [List.mem_singleton.1 h2, List.mem_singleton.1 h4]

/-- **C176, a session**: if its calls look for duplicates, the object it leaves stores every content once.  The assumption on the
object before holds for a new object and after such sessions. -/
theorem C176_session {w : World} (hc : Codec w) (hx : HexHash w) (hL : LowerHash w) (ht : ∀ t, w.time (w.time t) = w.time t)
    {fs : FS} {p N : Nat} {inv : Inv} {s : Session} (I : Intact w fs p N inv) (hone : SingleCopies inv)
    (hd : ∀ c ∈ s.calls, c.Dedup) (hs : CleanRun w p s.rounds N inv s) {h : Bytes → Str} (hh : w.hash inv.digestAlg = some h) :
    ∃ r, w.dec (w.enc (session w inv s).obj.inv) = some r ∧
      ValidObject w (applyOps fs (session w inv s).obj.trace) p (N + 1 + s.rounds.length) r ∧
      Intact w (applyOps fs (session w inv s).obj.trace) p (N + 1 + s.rounds.length) (loadedInv p r) ∧
      SingleCopies (loadedInv p r) ∧ StoredOnce (applyOps fs (session w inv s).obj.trace) (loadedInv p r) := by
  obtain ⟨_, r, h1, R, V, J⟩ := C165_rounds_valid hc hx hL ht I hs
  have h2 : SingleCopies (loadedInv p r) := fun d m hm => C176_manifest hx hL hh hone hd d m (R.manifest.mem_iff.2 hm)
  exact ⟨r, h1, V, J, h2, storedOnce_of J.ok.keys.manifest J.files h2⟩

/-! ## Any number of sessions -/

/-- an object made anew, or with one copy of each content, and updated by sessions that look for duplicates -/
inductive DedupRun (w : World) (p : Nat) : Nat → FS → Inv → Prop where
  | start {N : Nat} {fs : FS} {inv : Inv} : Intact w fs p N inv → (∃ h, w.hash inv.digestAlg = some h) → SingleCopies inv →
      DedupRun w p N fs inv
  | session {N : Nat} {fs : FS} {inv : Inv} {s : Session} {r : RawInv} : DedupRun w p N fs inv →
      (∀ c ∈ s.calls, c.Dedup) → CleanRun w p s.rounds N inv s → w.dec (w.enc (session w inv s).obj.inv) = some r →
      DedupRun w p (N + 1 + s.rounds.length) (applyOps fs (session w inv s).obj.trace) (loadedInv p r)

/-- **C176, over time.** -/
theorem C176_run {w : World} (hc : Codec w) (hx : HexHash w) (hL : LowerHash w) (ht : ∀ t, w.time (w.time t) = w.time t)
    {p N : Nat} {fs : FS} {inv : Inv} (h : DedupRun w p N fs inv) :
    Intact w fs p N inv ∧ (∃ h, w.hash inv.digestAlg = some h) ∧ SingleCopies inv ∧ StoredOnce fs inv := by
  induction h with
  | start I hh hs => exact ⟨I, hh, hs, storedOnce_of I.ok.keys.manifest I.files hs⟩
  | @session N fs inv s r _ hd hcl hr ih =>
    obtain ⟨I, ⟨h, hh⟩, hs, _⟩ := ih
    obtain ⟨r', h1, _, J, h2, h3⟩ := C176_session hc hx hL ht I hs hd hcl hh
    rw [hr] at h1
    cases h1
    refine ⟨J, ⟨h, ?_⟩, h2, h3⟩
    obtain ⟨_, r', h1, R, _⟩ := C165_rounds_valid hc hx hL ht I hcl
    rw [hr] at h1
    cases h1
    have e : (session w inv s).obj.inv.digestAlg = inv.digestAlg := ((single_inv hx hL hh).session (inv := inv) (s := s) ⟨rfl, hs⟩ hd).1
    show w.hash r.inv.digestAlg = some h
    rw [← R.scalars.2.2.1, e]
    exact hh

/-! ## The commands -/

theorem switch_or {x y : Option Bool} {v : Bool} (h : (x = some true → v = true) ∧ (x ≠ some true → v = y.getD false)) :
    v = true ↔ (x = some true ∨ y = some true) := by
  by_cases hx : x = some true
  · simp [h.1 hx, hx]
  · rw [h.2 hx]
    cases y <;> simp [hx]

theorem switch_and {x y : Option Bool} {v : Bool} (h : (x = some true → v = false) ∧ (x ≠ some true → v = y.getD true)) :
    v = true ↔ (x ≠ some true ∧ y ≠ some false) := by
  by_cases hx : x = some true
  · simp [h.1 hx, hx]
  · rw [h.2 hx]
    cases y <;> simp [hx]

/-- what was asked for is what the session does -/
theorem C176_asked {known : Str → Bool} {c : Command} {file : ConfFile} {g : Given} {k : Conf} (h : settle known c file g = .ok k)
    (hc : c = .create ∨ c = .add ∨ c = .update) (id src : Str) (args : List Str) (now : Str) (hooks : Session) (files : List InFile) :
    (AsksOnce c file g → ∀ x ∈ ((cmdLineOf c k id src args now hooks).session files).body, x.Dedup) ∧
    (¬ AsksOnce c file g → ((cmdLineOf c k id src args now hooks).session files).body = addAll false files) := by
  have hdup : sessionDup c k = true ↔ AsksOnce c file g := by
    rcases hc with rfl | rfl | rfl
    · exact switch_or (C140_switches_partial h (f := "deduplicate") (sw := .addDeduplicate) (b := true) (by simp [switchOptions]))
    · exact switch_or (C140_switches_partial h (f := "deduplicate") (sw := .addDeduplicate) (b := true) (by simp [switchOptions]))
    · exact switch_and (C140_switches_partial h (f := "no-deduplicate") (sw := .updDeduplicate) (b := false) (by simp [switchOptions]))
  have hb : ((cmdLineOf c k id src args now hooks).session files).body = addAll (sessionDup c k) files := rfl
  constructor
  · intro ha x hx
    rw [hb, hdup.2 ha] at hx
    obtain ⟨f, _, rfl⟩ := List.mem_map.1 hx
    rfl
  · intro ha
    rw [hb]
    cases hd : sessionDup c k with
    | false => rfl
    | true => exact absurd (hdup.1 hd) ha

section
variable {w : World} {env : Env} {plain : Bool} {blank : Inv} {ls : List (Str → Res Str)} {a : CreateArgs} {fs : FS} {id src : Str}
  {args : List Str} {now : Str} {hooks : Session} {files : List InFile} {known : Str → Bool} {file : ConfFile} {g : Given} {k : Conf}

/-- what the extensions do during the session stores no content, or looks for duplicates -/
def HooksDedup (hooks : Session) : Prop := ∀ c ∈ hooks.before ++ hooks.after ++ hooks.rounds.flatMap Round.calls, c.Dedup

theorem dedup_calls {s : Session} (hb : ∀ c ∈ s.body, c.Dedup) (hk : HooksDedup s) : ∀ c ∈ s.calls, c.Dedup := by
  intro c hc
  unfold Session.calls at hc
  simp only [List.mem_append] at hc
  rcases hc with ((hc | hc) | hc) | hc
  · exact hk c (by simp [hc])
  · exact hb c hc
  · exact hk c (by simp [hc])
  · exact hk c (List.mem_append.2 (Or.inr hc))

theorem singleCopies_new (id spec alg cd : Str) (fx : List Str) : SingleCopies (newInv id spec alg cd fx) := by
  intro d m hm; cases hm

/-- what a completed `add` leaves: the new object with what its session recorded -/
theorem add_leaves {w : World} {env : Env} {plain : Bool} {blank : Inv} {ls : List (Str → Res Str)} {a : CreateArgs} {fs : FS} {id : Str}
    {s : Session} (hc : Codec w) (hx : HexHash w) (hL : LowerHash w) (ht : ∀ t, w.time (w.time t) = w.time t)
    (hga : GoodArgs a id) (hex : objectExists ls fs id = .ok false) (he : (addCmd w env plain blank ls a fs id s).2 = none)
    (hs : CleanRun w 0 s.rounds 0 (newInv id a.spec a.alg a.contentDir a.fixity) s) :
    ∃ r f, loadByID w env plain blank ls (applyOps fs (addCmd w env plain blank ls a fs id s).1) id = .ok (loadedInv 0 r, f) ∧
      ReadBack w (session w (newInv id a.spec a.alg a.contentDir a.fixity) s).obj.inv r ∧
      Intact w (subFS (applyOps fs (addCmd w env plain blank ls a fs id s).1) (rootPath ls id).1) 0 (0 + 1 + s.rounds.length)
        (loadedInv 0 r) := by
  have hadd : addCmd w env plain blank ls a fs id s = addObjectByPath w env plain blank ls a fs id s := by
    unfold addCmd; rw [hex]
  rw [hadd] at he ⊢
  unfold addObjectByPath at he ⊢
  rw [hex] at he ⊢
  simp only at he ⊢
  cases hcr : (createObject ls a fs id).2 with
  | error e => rw [hcr] at he; cases he
  | ok x =>
    obtain ⟨folder, inv⟩ := x
    rw [hcr] at he
    simp only at he ⊢
    obtain ⟨rfl, hinv, hemp, hops⟩ := createObject_ok hcr
    have hini : (initObject a [] id).2 = .ok inv := by
      unfold createObject at hcr
      simp only [hemp] at hcr
      obtain ⟨j, hj, hcr⟩ := res_bind_eq_ok.1 hcr
      split at hcr
      · cases hcr
      · cases hcr; exact hj
    obtain ⟨I, hI⟩ := intact_new (w := w) hga hini
    have hsub : subFS (applyOps fs ((createObject ls a fs id).1 ++ (inFolder (rootPath ls id).1 (session w inv s)).1)) (rootPath ls id).1 =
        applyOps (applyOps [] (initObject a [] id).1) (session w inv s).obj.trace := by
      rw [applyOps_append]
      unfold inFolder
      rw [subFS_applyOps_lift]
      congr 1
      have : (createObject ls a fs id).1 = (initObject a [] id).1.map (FsOp.lift (rootPath ls id).1) := by
        unfold createObject; simp only [hemp]
      rw [this, subFS_applyOps_lift, hemp]
    rw [← hI] at hs ⊢
    obtain ⟨_, r, _, R, V, J⟩ := C165_rounds_valid hc hx hL ht I hs
    rw [← hsub] at V J
    obtain ⟨f, hload⟩ := loadByID_valid env plain blank (rootPath_of_exists hex) V
    exact ⟨r, f, hload, R, J⟩

/-- **C176, `add`**: if deduplication is asked for, the new object stores every content once.  Missing: contents that
extensions store by themselves. -/
theorem C176_add_partial {h : Bytes → Str} (hc : Codec w) (hx : HexHash w) (hL : LowerHash w) (ht : ∀ t, w.time (w.time t) = w.time t)
    (hset : settle known .add file g = .ok k) (hask : AsksOnce .add file g) (hk : HooksDedup hooks)
    (hga : GoodArgs a id) (hh : w.hash a.alg = some h) (hex : objectExists ls fs id = .ok false)
    (he : (addCmd w env plain blank ls a fs id ((cmdLineOf .add k id src args now hooks).session files)).2 = none)
    (hs : CleanRun w 0 hooks.rounds 0 (newInv id a.spec a.alg a.contentDir a.fixity) ((cmdLineOf .add k id src args now hooks).session files)) :
    let fs' := applyOps fs (addCmd w env plain blank ls a fs id ((cmdLineOf .add k id src args now hooks).session files)).1
    ∃ i f, loadByID w env plain blank ls fs' id = .ok (i, f) ∧ SingleCopies i ∧ StoredOnce (subFS fs' (rootPath ls id).1) i := by
  have hd := dedup_calls (s := (cmdLineOf .add k id src args now hooks).session files)
    ((C176_asked hset (.inr (.inl rfl)) id src args now hooks files).1 hask) hk
  obtain ⟨r, f, hl, R, J⟩ := add_leaves hc hx hL ht hga hex he hs
  have h2 : SingleCopies (loadedInv 0 r) := fun d m hm =>
    C176_manifest hx hL hh (singleCopies_new _ _ _ _ _) hd d m (R.manifest.mem_iff.2 hm)
  exact ⟨_, f, hl, h2, storedOnce_of J.ok.keys.manifest J.files h2⟩

/-- **C176, `update`**: the same for an object that stores every content once, unless told not to deduplicate. -/
theorem C176_update_partial {h : Bytes → Str} {inv : Inv} {f0 : List Fnd} {p N : Nat} (hc : Codec w) (hx : HexHash w)
    (hL : LowerHash w) (ht : ∀ t, w.time (w.time t) = w.time t)
    (hset : settle known .update file g = .ok k) (hask : AsksOnce .update file g) (hk : HooksDedup hooks)
    (hl : loadByID w env plain blank ls fs id = .ok (inv, f0)) (I : Intact w (subFS fs (rootPath ls id).1) p N inv)
    (hone : SingleCopies inv) (hh : w.hash inv.digestAlg = some h)
    (hs : CleanRun w p hooks.rounds N inv ((cmdLineOf .update k id src args now hooks).session files)) :
    let fs' := applyOps fs (updateCmd w env plain blank ls a fs id ((cmdLineOf .update k id src args now hooks).session files)).1
    ∃ i f, loadByID w env plain blank ls fs' id = .ok (i, f) ∧ SingleCopies i ∧ StoredOnce (subFS fs' (rootPath ls id).1) i := by
  have hd := dedup_calls (s := (cmdLineOf .update k id src args now hooks).session files)
    ((C176_asked hset (.inr (.inr rfl)) id src args now hooks files).1 hask) hk
  have hs : CleanRun w p ((cmdLineOf .update k id src args now hooks).session files).rounds N inv
    ((cmdLineOf .update k id src args now hooks).session files) := hs
  generalize (cmdLineOf .update k id src args now hooks).session files = s at *
  have hroot : (rootPath ls id).2 = false := by
    unfold loadByID at hl
    split at hl
    · cases hl
    · rename_i hr; exact Bool.eq_false_iff.2 hr
  have hex : objectExists ls fs id = .ok true := by
    obtain ⟨num, _, hd, _⟩ := I.decl
    exact objectExists_of_file hroot (p := declName num) (by rw [← mget_subFS, hd]; simp)
  have hupd : updateCmd w env plain blank ls a fs id s = inFolder (rootPath ls id).1 (session w inv s) := by
    unfold updateCmd addObjectByPath
    simp only [hex, hl]
  rw [hupd]
  have hsub : subFS (applyOps fs (inFolder (rootPath ls id).1 (session w inv s)).1) (rootPath ls id).1 =
      applyOps (subFS fs (rootPath ls id).1) (session w inv s).obj.trace := subFS_applyOps_lift _ _ _
  obtain ⟨r, _, V, _, h1, h2⟩ := C176_session hc hx hL ht I hone hd hs hh
  rw [← hsub] at V
  obtain ⟨f, hload⟩ := loadByID_valid env plain blank hroot V
  refine ⟨_, f, hload, h1, ?_⟩
  show StoredOnce (subFS (applyOps fs (inFolder (rootPath ls id).1 (session w inv s)).1) (rootPath ls id).1) _
  rw [hsub]
  exact h2

end

/-! ## Without deduplication -/

/-- the file was written and is listed -/
def Put (x : Str) (d : Bytes) (o : Obj) : Prop := FsOp.append x d ∈ o.trace ∧ ∃ e m, mget o.inv.manifest e = some m ∧ x ∈ m

theorem Put.step {w : World} {x : Str} {d : Bytes} {o o' : Obj} (h : Put x d o) (hs : CallStep w (fun _ _ => True) o o') : Put x d o' := by
  obtain ⟨h1, e, m, h2, h3⟩ := h
  obtain ⟨t, ht, _⟩ := hs.trace
  obtain ⟨ops, hops, _⟩ := hs.inv
  obtain ⟨ext, he⟩ := C12_manifest_only_grows hops h2
  exact ⟨by rw [ht]; exact List.mem_append_left _ h1, e, _, he, List.mem_append_left _ h3⟩

theorem put_inv {w : World} (x : Str) (d : Bytes) : SessionInv w (fun _ => True) (Put x d) where
  call o c _ h := h.step (runCall_step (w := w) c (fun _ _ => trivial))
  echo o h := h.step (echoIf_step (w := w))
  open_ o e i m u a t h hv := by
    obtain ⟨h1, h2⟩ := h
    refine ⟨h1, ?_⟩
    show ∃ e m, mget i.manifest e = some m ∧ x ∈ m
    rw [(newVersion_frame hv).2.2.2.2.2.1]
    exact h2
  openErr o e h := h
  store o v r h := by
    obtain ⟨h1, _, t, ht, _⟩ := storeInventory_trace (w := w) (o := o) (v := v) (r := r)
    unfold Put
    rw [h1, ht]
    exact ⟨List.mem_append_left _ h.1, h.2⟩
  ext o n b h := ⟨List.mem_append_left _ h.1, h.2⟩

theorem put_add {w : World} {o : Obj} {p area : Str} {data : Bytes} (he : (objAdd w o p area data false).err = none) :
    ∃ x, targetOf w o.inv (p, area) = some x ∧ Put x data (objAdd w o p area data false).obj := by
  unfold objAdd at he ⊢
  split at he
  · cases he
  · rename_i hw
    rw [if_neg hw]
    split at he
    · cases he
    · rename_i names mp hb
      obtain ⟨hn, i, hi, hmp⟩ := buildNames_ok hb
      have hi : w.manifestPath p area = .ok i := hi
      refine ⟨mp, by simp [targetOf, hi, hmp], ?_⟩
      simp only [Bool.false_eq_true, if_false] at he ⊢
      unfold addReader at he ⊢
      simp only at he ⊢
      split at he
      · cases he
      · rename_i cs hcs
        unfold withInv at he ⊢
        cases hf : addFile o.inv names mp cs with
        | error e => rw [hf] at he; cases he
        | ok j =>
          have hne : names ≠ [] := by
            have := mapM_length hn
            intro hc; rw [hc] at this; cases this
          obtain ⟨e, m, h1, h2⟩ := addFile_under hf hne (by rw [hmp]; exact C13_content_path_ne_nil _ _)
          refine ⟨?_, e, m, h1, h2⟩
          show _ ∈ _ ++ _
          simp [writeFile]

theorem put_calls {w : World} {o : Obj} {files : List InFile} (he : (runCalls w o (addAll false files)).err = none) {f : InFile}
    (hf : f ∈ files) : ∃ x, targetOf w o.inv (f.path, f.area) = some x ∧ Put x f.data (runCalls w o (addAll false files)).obj := by
  induction files generalizing o with
  | nil => cases hf
  | cons g files ih =>
    have e : runCalls w o (addAll false (g :: files)) =
      (objAdd w o g.path g.area g.data false).andThen (fun o => runCalls w o (addAll false files)) := rfl
    rw [e] at he ⊢
    obtain ⟨h1, h2⟩ := andThen_split he
    rw [andThen_none h1]
    rcases List.mem_cons.1 hf with rfl | hf
    · obtain ⟨x, h3, h4⟩ := put_add h1
      exact ⟨x, h3, (put_inv x f.data).calls h4 (fun _ _ => trivial)⟩
    · obtain ⟨x, h3, h4⟩ := ih h2 hf
      refine ⟨x, ?_, h4⟩
      have hh := (runCall_step (w := w) (U := fun _ _ => True) (o := o) (.add g.path g.area g.data false) (fun _ _ => trivial)).headOnly
      rw [← h3]
      unfold targetOf
      split
      · exact congrArg some (buildManifestName_congr hh _).symm
      · rfl

/-- **C176, without deduplication**: every file given is stored by itself, files with the same content each in a content file of
its own. -/
theorem C176_apart {w : World} {fs : FS} {p N : Nat} {inv : Inv} {s : Session} {files : List InFile} (I : Intact w fs p N inv)
    (hs : CleanSession w p N inv s) (hb : s.body = addAll false files) {h : Bytes → Str} (hh : w.hash inv.digestAlg = some h) :
    ∃ place : InFile → Str, (files.map place).Nodup ∧ ∀ f ∈ files, Listed (session w inv s).obj.inv (place f) ∧ ¬ Listed inv (place f) ∧
      mget (applyOps fs (session w inv s).obj.trace) (place f) = some f.data := by
  have he := hs.completes
  cases hv : newVersion inv s.info.msg s.info.userName s.info.userAddress s.info.now with
  | error e => rw [session_eq_err hv] at he; cases he
  | ok i =>
    have key : ∀ f ∈ files, ∃ x, targetOf w i (f.path, f.area) = some x ∧ Put x f.data (session w inv s).obj := by
      intro f hf
      rw [session_eq_rest hv] at he ⊢
      unfold sessionRest at he ⊢
      obtain ⟨h1, h2⟩ := andThen_split he
      obtain ⟨h3, h4⟩ := andThen_split h1
      obtain ⟨h5, h6⟩ := andThen_split h4
      rw [hb] at h5
      obtain ⟨x, h7, h8⟩ := put_calls h5 hf
      have hho := (runCalls_step (w := w) (U := fun _ _ => True) (o := ⟨i, [], s.echo, []⟩) s.before (fun _ _ _ _ => trivial)).headOnly
      refine ⟨x, ?_, ?_⟩
      · rw [← h7]
        unfold targetOf
        split
        · rw [buildManifestName_congr hho]
        · rfl
      · rw [andThen_none h1, andThen_none h3, hb, andThen_none h5]
        exact (put_inv x f.data).close ((put_inv x f.data).endUpdate h8 (fun _ _ => trivial) (fun _ _ _ _ => trivial)) _
    have hhead : i.head = verName inv.paddingLength ((N + 1 : Nat) : Int) := by
      obtain ⟨st, _, _, hst⟩ := newVersion_gapFree I.ok.wf.1 I.ok.wf.2 s.info.msg s.info.userName s.info.userAddress s.info.now
      rw [hv] at hst
      cases hst
      rfl
    have htar : ∀ x, targetOf w { inv with head := verName inv.paddingLength ((N + 1 : Nat) : Int) } x = targetOf w i x := by
      intro x
      unfold targetOf buildManifestName buildManifestNameVersion Inv.contentDir
      rw [hhead, (newVersion_frame hv).1]
    obtain ⟨hx1, hx2⟩ := session_once I.ok.wf I.ok.cdir I.ok.algSlash (invOk_versionFile I.ok) hs.names hs.rounds hs.distinct
    have hrec : RecAlg (fun _ => True) h inv (session w inv s).obj := (recAlg_inv hh).session
      ⟨⟨[], rfl, fun d m p hd hp => Or.inl ⟨m, hd, hp⟩⟩, rfl⟩ (fun _ _ _ _ => trivial)
    obtain ⟨⟨bl, h1, _⟩, _⟩ := hrec
    refine ⟨fun f => (targetOf w i (f.path, f.area)).getD [], ?_, fun f hf => ?_⟩
    · have hsub : (files.map (fun f => (targetOf w i (f.path, f.area)).getD [])).Sublist
          (targets w { inv with head := verName inv.paddingLength ((N + 1 : Nat) : Int) } (s.before ++ s.body ++ s.after)) := by
        rw [targets_append, targets_append, hb]
        refine List.Sublist.trans ?_ ((List.sublist_append_right _ _).trans (List.sublist_append_left _ _))
        have : targets w { inv with head := verName inv.paddingLength ((N + 1 : Nat) : Int) } (addAll false files) =
            files.map (fun f => (targetOf w i (f.path, f.area)).getD []) := by
          clear hb
          induction files with
          | nil => rfl
          | cons f files ih =>
            obtain ⟨x, hx, _⟩ := key f (List.mem_cons_self ..)
            have ih := ih (fun g hg => key g (List.mem_cons_of_mem _ hg))
            have e : targets w { inv with head := verName inv.paddingLength ((N + 1 : Nat) : Int) } (addAll false (f :: files)) =
                ([(f.path, f.area)].filterMap (targetOf w { inv with head := verName inv.paddingLength ((N + 1 : Nat) : Int) })) ++
                targets w { inv with head := verName inv.paddingLength ((N + 1 : Nat) : Int) } (addAll false files) := by
              unfold targets addAll callsUses
              rw [List.map_cons, List.flatMap_cons, List.filterMap_append]
              rfl
            rw [e, ih, List.filterMap_cons_some ((htar _).trans hx), List.map_cons, hx]
            rfl
        rw [this]
      exact hs.distinct.sublist hsub
    · obtain ⟨x, hx, hput, e, m, hm, hxm⟩ := key f hf
      simp only [hx, Option.getD_some]
      have hmem := mem_of_mget hm
      have hcnt := hx2 e m x hmem hxm
      have hin : (x, some f.data) ∈ bl := by
        rw [h1] at hput
        obtain ⟨b, hb1, hb2⟩ := List.mem_flatMap.1 hput
        obtain ⟨q, o⟩ := b
        cases o with
        | none => simp [Block.ops] at hb2
        | some d =>
          simp only [Block.ops, writeFile, List.mem_cons, List.not_mem_nil, or_false, reduceCtorEq, false_or, FsOp.append.injEq] at hb2
          obtain ⟨rfl, rfl⟩ := hb2
          exact hb1
      refine ⟨⟨e, m, hmem, hxm⟩, fun hl => ?_, ?_⟩
      · refine hx1 x hl ?_
        rw [h1, creates_render]
        exact List.mem_map.2 ⟨_, hin, rfl⟩
      · rw [h1, creates_render] at hcnt
        rw [h1]
        exact mget_render_once hin hcnt fs

/-! ## Cases, and what does not hold -/

/-- a command line asking for deduplication -/
def dedupGiven : Given := { str := [("message".toList, "hi".toList)], on := [("deduplicate".toList, true)] }

theorem dedup_settled : settle exAlgs .add {} dedupGiven = .ok (settled .add {} dedupGiven) := rfl

/-- two files with the same content -/
def twinFiles : List InFile := [⟨"content".toList, "c/d".toList, [7]⟩, ⟨"content".toList, "e".toList, [7]⟩]

def twinSession (hooks : Session) : Session :=
  (cmdLineOf .add (settled .add {} dedupGiven) "a".toList "src".toList [] "t".toList hooks).session twinFiles

theorem twin_eq (after : List Call) : twinSession { exSession [] with after := after } =
    { exSession [] with info := ⟨"hi".toList, [], [], "t".toList⟩, body := addAll true twinFiles, after := after } := rfl

theorem twin_clean {after : List Call} (ha : after = [] ∨ after = [.reader ["x".toList] "meta".toList [7]])
    (he : (session exKeep lifeInv0 (twinSession { exSession [] with after := after })).err = none)
    (hm : (session exKeep lifeInv0 (twinSession { exSession [] with after := after })).obj.inv.modified = true)
    (hh : HeadPathsOk (session exKeep lifeInv0 (twinSession { exSession [] with after := after })).obj.inv) :
    CleanSession exKeep 0 0 lifeInv0 (twinSession { exSession [] with after := after }) where
  names := by
    intro x hx i hi
    rw [twin_eq] at hx
    have : x = ("c/d".toList, "content".toList) ∨ x = ("e".toList, "content".toList) ∨ x = ("x".toList, "meta".toList) := by
      rcases ha with rfl | rfl
      · have hx : x ∈ [("c/d".toList, "content".toList), ("e".toList, "content".toList)] := hx
        simp only [List.mem_cons, List.not_mem_nil, or_false] at hx
        tauto
      · have hx : x ∈ [("c/d".toList, "content".toList), ("e".toList, "content".toList), ("x".toList, "meta".toList)] := hx
        simpa only [List.mem_cons, List.not_mem_nil, or_false] using hx
    rcases this with rfl | rfl | rfl
    · cases hi; exact ⟨1, by decide⟩
    · cases hi; exact ⟨0, by decide⟩
    · cases hi; exact ⟨0, by decide⟩
  rounds := rfl
  distinct := by
    rw [twin_eq]
    rcases ha with rfl | rfl
    · have : (targets exKeep { lifeInv0 with head := verName lifeInv0.paddingLength ((0 + 1 : Nat) : Int) }
        ([] ++ addAll true twinFiles ++ [])).Nodup := by decide
      exact this
    · have : (targets exKeep { lifeInv0 with head := verName lifeInv0.paddingLength ((0 + 1 : Nat) : Int) }
        ([] ++ addAll true twinFiles ++ [.reader ["x".toList] "meta".toList [7]])).Nodup := by decide
      exact this
  completes := he
  modified := hm
  paths := hh
  width := by decide

/-- The hypotheses are met: of two files with the same content one is stored, both are in the object. -/
theorem twin_added : ∃ i f, loadByID exKeep exEnv true (blankInv [] []) flatLayout (applyOps [] (addCmd exKeep exEnv true (blankInv [] [])
      flatLayout exArgs [] "a".toList (twinSession { exSession [] with after := [] })).1) "a".toList = .ok (i, f) ∧
    SingleCopies i := by
  obtain ⟨h, hh⟩ : ∃ h, exKeep.hash exArgs.alg = some h := ⟨_, rfl⟩
  obtain ⟨i, f, h1, h2, _⟩ := C176_add_partial (w := exKeep) (env := exEnv) (plain := true) (blank := blankInv [] []) (ls := flatLayout)
    (a := exArgs) (fs := []) (id := "a".toList) (src := "src".toList) (args := []) (now := "t".toList)
    (hooks := { exSession [] with after := [] }) (files := twinFiles) (codecWorld_codec _) (codecWorld_hex _)
    exKeep_lower (fun _ => rfl) dedup_settled (Or.inl rfl) (fun c hc => nomatch hc) exArgs_good hh (by decide) (by decide)
    (twin_clean (Or.inl rfl) (by decide) (by decide) (headPaths_of (p := 0) (N := 1) (validInv_of (by decide))))
  exact ⟨i, f, h1, h2⟩

/-- Without deduplication the two files are stored one by one. -/
theorem twin_apart : ∃ place : InFile → Str, (twinFiles.map place).Nodup ∧
    ∀ f ∈ twinFiles, Listed (session exKeep lifeInv0 { exSession [] with body := addAll false twinFiles }).obj.inv (place f) := by
  obtain ⟨h, hh⟩ : ∃ h, exKeep.hash lifeInv0.digestAlg = some h := ⟨_, rfl⟩
  obtain ⟨I, hI⟩ := intact_new (w := exKeep) (inv := lifeInv0) exArgs_good (by decide)
  obtain ⟨place, h1, h2⟩ := C176_apart (s := { exSession [] with body := addAll false twinFiles }) I
    { names := by
        intro x hx i hi
        have hx : x ∈ [("c/d".toList, "content".toList), ("e".toList, "content".toList)] := hx
        simp only [List.mem_cons, List.not_mem_nil, or_false] at hx
        rcases hx with rfl | rfl
        · cases hi; exact ⟨1, by decide⟩
        · cases hi; exact ⟨0, by decide⟩
      rounds := rfl
      distinct := by decide
      completes := by decide
      modified := by decide
      paths := headPaths_of (p := 0) (N := 1) (validInv_of (by decide))
      width := by decide } rfl hh
  exact ⟨place, h1, fun f hf => (h2 f hf).1⟩

/-- **C176, in full**: whenever deduplication is asked for, the object stores every content once. -/
def C176_full : Prop := ∀ (w : World) (env : Env) (plain : Bool) (blank : Inv) (ls : List (Str → Res Str)) (a : CreateArgs) (fs : FS)
  (known : Str → Bool) (file : ConfFile) (g : Given) (k : Conf) (id src : Str) (args : List Str) (now : Str) (hooks : Session)
  (files : List InFile), Codec w → HexHash w → LowerHash w → (∀ t, w.time (w.time t) = w.time t) →
  settle known .add file g = .ok k → AsksOnce .add file g → GoodArgs a id → (∃ h, w.hash a.alg = some h) →
  objectExists ls fs id = .ok false →
  (addCmd w env plain blank ls a fs id ((cmdLineOf .add k id src args now hooks).session files)).2 = none →
  CleanRun w 0 hooks.rounds 0 (newInv id a.spec a.alg a.contentDir a.fixity) ((cmdLineOf .add k id src args now hooks).session files) →
  let fs' := applyOps fs (addCmd w env plain blank ls a fs id ((cmdLineOf .add k id src args now hooks).session files)).1
  ∃ i f, loadByID w env plain blank ls fs' id = .ok (i, f) ∧ StoredOnce (subFS fs' (rootPath ls id).1) i

/-- **C176 is violated**: what an extension stores by itself is stored even if the object has it already. -/
theorem C176_full_fails : ¬ C176_full := by
  intro hf
  obtain ⟨i, f, h1, h2⟩ := hf exKeep exEnv true (blankInv [] []) flatLayout exArgs [] exAlgs {} dedupGiven _ "a".toList "src".toList []
    "t".toList { exSession [] with after := [.reader ["x".toList] "meta".toList [7]] } twinFiles (codecWorld_codec _) (codecWorld_hex _)
    exKeep_lower (fun _ => rfl) dedup_settled (Or.inl rfl) exArgs_good ⟨_, rfl⟩ (by decide) (by decide)
    (twin_clean (Or.inr rfl) (by decide) (by decide) (headPaths_of (p := 0) (N := 1) (validInv_of (by decide))))
  obtain ⟨r, f', h3, R, _⟩ := add_leaves (w := exKeep) (env := exEnv) (plain := true) (blank := blankInv [] []) (ls := flatLayout)
    (a := exArgs) (fs := []) (id := "a".toList) (s := twinSession { exSession [] with after := [.reader ["x".toList] "meta".toList [7]] })
    (codecWorld_codec _) (codecWorld_hex _) exKeep_lower (fun _ => rfl) exArgs_good (by decide) (by decide)
    (twin_clean (Or.inr rfl) (by decide) (by decide) (headPaths_of (p := 0) (N := 1) (validInv_of (by decide))))
  cases h1.symm.trans h3
  have hm : ("a0".toList, ["v1/content/c/d".toList, "v1/content/x".toList]) ∈ (loadedInv 0 r).manifest :=
    R.manifest.mem_iff.1 (by decide)
  exact absurd (h2 _ _ [7] ⟨_, _, hm, .head _⟩ ⟨_, _, hm, .tail _ (.head _)⟩ (by decide) (by decide)) (by decide)

end Gocfl
