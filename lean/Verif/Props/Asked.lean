import Verif.Props.Dedup
import Verif.Props.Fixity
import Verif.Props.CmdLine

/-! # C177, C178: what `create` is asked for is what the storage root and the object have -/

namespace Gocfl

/-! ## What was asked for -/

/-- the digest algorithm asked for: the option, or else what the configuration file says -/
def AsksDigest (file : ConfFile) (g : Given) (d : Str) : Prop :=
  (mget g.str "digest".toList = some d ∧ d ≠ []) ∨
  ((∀ v, mget g.str "digest".toList = some v → v = []) ∧ mget file.str .initDigest = some d ∧ d ≠ [])

/-- the OCFL version asked for: the option, 1.1 without one -/
def AsksVersion (g : Given) (v : Str) : Prop :=
  (mget g.str "ocfl-version".toList = some v ∧ v ≠ []) ∨ (mget g.str "ocfl-version".toList = none ∧ v = "1.1".toList)

/-- the area for the source folder: what the configuration file says, `content` if it says nothing -/
def AsksArea (file : ConfFile) (a : Str) : Prop :=
  (mget file.str .defaultArea = some a ∧ a ≠ []) ∨ ((∀ v, mget file.str .defaultArea = some v → v = []) ∧ a = "content".toList)

/-- the algorithm `x` is one of those asked for with `--fixity`, a list separated by commas -/
def AsksFixity (g : Given) (x : Str) : Prop :=
  ∃ v, mget g.str "fixity".toList = some v ∧ ∃ a ∈ splitOn ',' v, algName a = x ∧ x ≠ []

section
variable {known : Str → Bool} {c : Command} {file : ConfFile} {g : Given} {k : Conf}

theorem flagStr_nil {f : String} (hd : flagDefault c f.toList = []) (h : ∀ v, mget g.str f.toList = some v → v = []) : flagStr c g f = [] := by
  unfold flagStr
  cases hm : mget g.str f.toList with
  | none => exact hd
  | some v => exact h v hm

theorem asked_digest (h : settle known .create file g = .ok k) {d : Str} (hd : AsksDigest file g d) (spec cd : Str) (al : List Str) :
    (createArgsOf k spec cd al).alg = d := by
  have ht : IsText .create "digest" .initDigest := .inl (by simp [textOptions])
  show k.str .initDigest = d
  rcases hd with ⟨h1, h2⟩ | ⟨h1, h2, h3⟩
  · exact C140_texts h ht h1 h2
  · have e : fileStr file .initDigest = d := by unfold fileStr; rw [h2]; rfl
    rw [settle_eq h, settled_str ht file g (.inr (by rw [e]; exact h3)), if_pos (flagStr_nil (by decide) h1), e]

theorem asked_version (h : settle known .create file g = .ok k) {v : Str} (hv : AsksVersion g v) : k.str .initVersion = v := by
  rcases hv with ⟨h1, h2⟩ | ⟨h1, rfl⟩
  · exact C140_texts h (f := "ocfl-version") (.inl (by simp [textOptions])) h1 h2
  · exact C141_lost h (f := "ocfl-version") (s := .initVersion) (d := "1.1") (by simp [lostSettings]) h1

theorem settled_area (c : Command) (file : ConfFile) (g : Given) : (settled c file g).str .defaultArea = fileStr file .defaultArea := by
  unfold fileStr
  cases c <;> simp [settled, initConf, initTexts, addTexts, updateTexts, extractConf, extractMetaConf, validateConf, displayConf, statConf,
    overlay_str, ifEmpty_str, loadConf]
  split <;> simp [overlay_str]

theorem asked_area (h : settle known c file g = .ok k) {a : Str} (ha : AsksArea file a) : sourceArea k = a := by
  unfold sourceArea
  rw [settle_eq h, settled_area]
  unfold fileStr
  rcases ha with ⟨h1, h2⟩ | ⟨h1, rfl⟩
  · rw [h1]; exact if_neg h2
  · cases hm : mget file.str .defaultArea with
    | none => rfl
    | some v => rw [h1 v hm]; rfl

theorem asked_fixity (h : settle known .create file g = .ok k) {x : Str} (hx : AsksFixity g x) (spec cd : Str) (al : List Str) :
    x ∈ (createArgsOf k spec cd al).fixity := by
  obtain ⟨v, h1, y, h2, h3, h4⟩ := hx
  refine ((C140_fixity (.inr rfl) h).1 x).2 ⟨h4, .inr ⟨v, h1, ?_, y, h2, h3⟩⟩
  rintro rfl
  have : y ∈ splitOn ',' ([] : Str) := h2
  rw [show splitOn ',' ([] : Str) = [[]] from rfl, List.mem_singleton] at this
  subst this
  exact h4 h3.symm

end

/-! ## A session keeps id and digest algorithm -/

theorem session_scalars {w : World} {inv : Inv} {n : Nat} (h : WF inv n) (s : Session) :
    (session w inv s).obj.inv.id = inv.id ∧ (session w inv s).obj.inv.digestAlg = inv.digestAlg := by
  have hinv : (session w inv s).obj.inv = (sessionOpen w inv s).obj.inv := by
    unfold session
    cases he : (sessionOpen w inv s).err with
    | some e => rw [andThen_some he]
    | none =>
      rw [andThen_none he]
      rcases closeObj_cases w (sessionOpen w inv s).obj s.exts with ⟨e, _⟩ | ⟨_, _, _, e, _⟩ | ⟨_, _, _, _, e⟩
      · rw [e]; rfl
      · rw [e]
      · rw [e]; rfl
  rw [hinv]
  refine ⟨sessionOpen_id h s, ?_⟩
  rcases sessionOpen_good (w := w) h s.usesIn with hg | ⟨_, h2, _⟩
  · exact hg.alg
  · rw [h2]

/-! ## C177 -/

section
variable {w : World} {env : Env} {plain : Bool} {blank : Inv} {ls : List (Str → Res Str)} {β : Type} {n : NewRoot β} {a : CreateArgs}
  {u : Surroundings} {c : CmdLine} {files : List InFile}

/-- the storage root before the object is added -/
def madeRoot (n : NewRoot β) : RootDisk := (initRoot n.T n.folders n.init n.mgr n.layouts ⟨[], []⟩).1

/-- what a successful `create` did: it made the storage root and added the object -/
theorem create_ran (hfo : openFolders u c = .ok files) (hex : objectExists ls (madeRoot n).fs c.id = .ok false)
    (hok : (createRun w env plain blank ls n a u c ⟨[], []⟩).2.success = true) :
    (initRoot n.T n.folders n.init n.mgr n.layouts ⟨[], []⟩).2 = none ∧
    (addCmd w env plain blank ls a (madeRoot n).fs c.id (c.session files)).2 = none ∧
    (createRun w env plain blank ls n a u c ⟨[], []⟩).1.fs =
      applyOps (madeRoot n).fs (addCmd w env plain blank ls a (madeRoot n).fs c.id (c.session files)).1 := by
  have hadd : addCmd w env plain blank ls a (madeRoot n).fs c.id (c.session files) =
      addObjectByPath w env plain blank ls a (madeRoot n).fs c.id (c.session files) := by
    unfold addCmd; rw [hex]
  rw [hadd]
  unfold madeRoot at *
  cases hir : (initRoot n.T n.folders n.init n.mgr n.layouts ⟨[], []⟩).2 with
  | some e =>
    exfalso
    unfold createRun at hok
    simp only [hfo, hir] at hok
    cases hok
  | none =>
    cases hx2 : (addObjectByPath w env plain blank ls a (initRoot n.T n.folders n.init n.mgr n.layouts ⟨[], []⟩).1.fs c.id (c.session files)).2 with
    | some e =>
      exfalso
      unfold createRun at hok
      simp only [hfo, hir, hx2] at hok
      cases hok
    | none =>
      refine ⟨rfl, rfl, ?_⟩
      unfold createRun
      simp only [hfo, hir, hx2]

/-- the object in `fs` is declared for the version its folder was made with -/
theorem declared_as {fs fs' : FS} {v : Str} {p N : Nat} {i : Inv} (hv : IsVersionNum v) (h0 : mget fs (declName v) ≠ none)
    {t : List FsOp} (hf : fs' = applyOps fs t) (I : Intact w fs' p N i) :
    mget fs' (declName v) = some (asBytes (objDecl ++ v ++ "\n".toList)) := by
  obtain ⟨num, hn, hm, hu⟩ := I.decl
  have h1 : mget fs' (declName v) ≠ none := by rw [hf]; exact mget_applyOps_ne_none h0
  obtain ⟨b, hb⟩ := Option.ne_none_iff_exists'.1 h1
  rcases hu _ _ hb (declName_slash hv) with h | h | h
  · have : num = v := by
      unfold declName at h
      exact (List.append_cancel_left (List.append_cancel_left h)).symm
    rw [← this]; exact hm
  · exact absurd h (declName_ne_root v)
  · exact absurd h declName_ne

/-- **C177, `create`**: if it succeeds, the storage root and the object are declared for the version asked for, the object has the
digest algorithm asked for, every content file is recorded under its digest, and under its value for each algorithm asked for with
`--fixity`.  Missing: digest algorithms other than SHA-512 and SHA-256, `--default-area`, files in conflict with each other. -/
theorem C177_create_partial {known : Str → Bool} {file : ConfFile} {g : Given} {k : Conf} {T : CfgText β} {folders : Bool}
    {docs : List (Str × Bytes)} {announce : Ext β → Bytes} {mgr : ExtMgr β} {layouts : List (Ext β)} {spec cd : Str} {al : List Str}
    {id src : Str} {args : List Str} {now : Str} {hooks : Session}
    (hset : settle known .create file g = .ok k) (hc : Codec w) (hx : HexHash w) (hL : LowerHash w)
    (ht : ∀ t, w.time (w.time t) = w.time t) (hga : GoodArgs (createArgsOf k spec cd al) id)
    (hfo : openFolders u (cmdLineOf .create k id src args now hooks) = .ok files)
    (hex : objectExists ls (madeRoot (newRootOf k T folders docs announce mgr layouts)).fs id = .ok false)
    (hs : CleanRun w 0 hooks.rounds 0 (newInv id spec (createArgsOf k spec cd al).alg cd (createArgsOf k spec cd al).fixity)
      ((cmdLineOf .create k id src args now hooks).session files))
    (hok : (createRun w env plain blank ls (newRootOf k T folders docs announce mgr layouts) (createArgsOf k spec cd al) u
      (cmdLineOf .create k id src args now hooks) ⟨[], []⟩).2.success = true) :
    let fs := (createRun w env plain blank ls (newRootOf k T folders docs announce mgr layouts) (createArgsOf k spec cd al) u
      (cmdLineOf .create k id src args now hooks) ⟨[], []⟩).1.fs
    let ofs := subFS fs (rootPath ls id).1
    (∀ v, AsksVersion g v → mget fs ("0=ocfl_".toList ++ v) ≠ none ∧
      mget ofs ("0=ocfl_object_".toList ++ v) = some (asBytes ("ocfl_object_".toList ++ v ++ "\n".toList))) ∧
    ∃ i f, loadByID w env plain blank ls fs id = .ok (i, f) ∧ i.id = id ∧
      ∀ d, AsksDigest file g d → i.digestAlg = d ∧
        ∀ x m p, (x, m) ∈ i.manifest → p ∈ m → ∃ b hash, mget ofs p = some b ∧ w.hash d = some hash ∧ hash b = toLower x ∧
          ∀ y, AsksFixity g y → y ≠ d → ∃ mm fd ps hash', (y, mm) ∈ i.fixity ∧ (fd, ps) ∈ mm ∧ p ∈ ps ∧ w.hash y = some hash' ∧
            hash' b = toLower fd := by
  intro fs ofs
  obtain ⟨h1, h2, h3⟩ := create_ran (c := cmdLineOf .create k id src args now hooks) hfo hex hok
  have h3 : fs = _ := h3
  rw [show (cmdLineOf .create k id src args now hooks).id = id from rfl] at h2 h3
  obtain ⟨r, f, hl, R, J⟩ := add_leaves hc hx hL ht hga hex h2 hs
  obtain ⟨_, _, hsub⟩ := add_ran hex h2 hga
  have hsub : subFS (applyOps (madeRoot (newRootOf k T folders docs announce mgr layouts)).fs _) (rootPath ls id).1 = _ := hsub
  have hl : loadByID w env plain blank ls _ id = _ := hl
  have J : Intact w (subFS _ (rootPath ls id).1) _ _ _ := J
  rw [← h3] at hl J hsub
  have hini : ∀ v, (createArgsOf k spec cd al).version = v →
      mget (applyOps [] (initObject (createArgsOf k spec cd al) [] id).1) (declName v) ≠ none := by
    rintro v rfl
    unfold initObject
    rw [if_neg (by simp [mget]), if_neg (by simp)]
    simp only
    rw [mget_writeFile]
    simp
  refine ⟨fun v hv => ⟨?_, ?_⟩, loadedInv 0 r, f, hl, ?_, ?_⟩
  · have e := asked_version hset hv
    rw [h3]
    apply mget_applyOps_ne_none
    have := (initRoot_none h1).2
    rw [show (newRootOf k T folders docs announce mgr layouts).init.version = v from e] at this
    exact this
  · have e := asked_version hset hv
    exact declared_as (v := v) (by rw [← e]; exact hga.version) (hini v e) hsub J
  · exact R.scalars.1.symm.trans (session_scalars (newInv_wf _ _ _ _ _) _).1
  · intro d hd
    have e := asked_digest hset hd spec cd al
    have ealg : (loadedInv 0 r).digestAlg = d :=
      (R.scalars.2.2.1.symm.trans (session_scalars (newInv_wf _ _ _ _ _) _).2).trans e
    refine ⟨ealg, fun x m p hm hp => ?_⟩
    obtain ⟨b, hash, h5, h6, h7⟩ := J.files.content x m p hm hp
    refine ⟨b, hash, h5, ealg ▸ h6, h7, fun y hy hyd => ?_⟩
    have hcov := (C121_session (w := w) (F := (createArgsOf k spec cd al).fixity)
      (inv := newInv id spec (createArgsOf k spec cd al).alg cd (createArgsOf k spec cd al).fixity) ⟨List.nodup_nil, List.nodup_nil, fun _ _ h => nomatch h⟩
      (fun a ha _ => ha) (fun a ha => by cases ha) (fun a _ _ c ⟨_, _, hm, _⟩ => by cases hm)
      ((cmdLineOf .create k id src args now hooks).session files)).1
    obtain ⟨mm, fd, ps, k1, k2, k3⟩ := hcov y (asked_fixity hset hy spec cd al)
      (by rw [(session_scalars (newInv_wf _ _ _ _ _) _).2]; exact fun e' => hyd (e'.trans e)) p
      ⟨x, m, R.manifest.mem_iff.2 hm, hp⟩
    obtain ⟨mm', k4, k5⟩ := R.fixity y mm k1
    have k5 := k5.mem_iff.1 k2
    obtain ⟨_, b', hash', k6, k7, k8⟩ := J.files.fixity y mm' fd ps p k4 k5 k3
    rw [h5] at k6
    cases k6
    exact ⟨mm', fd, ps, hash', k4, k5, k3, k7, k8⟩

/-- **C177, areas** (`create`, `add`, `update`): the files taken in are those of the source folder, in the area set in the configuration
file or `content`, and those of the folders named with an area. -/
theorem C177_area {known : Str → Bool} {cm : Command} {file : ConfFile} {g : Given} {k : Conf} {area id src : Str} {args : List Str}
    {now : Str} {hooks : Session} (hset : settle known cm file g = .ok k) (ha : AsksArea file area) (hu : AnyOrder u)
    (hfo : openFolders u (cmdLineOf cm k id src args now hooks) = .ok files) (q : Str) (b : Bytes) :
    Source w files q b ↔ (∃ F, u.get src = .ok F ∧ ∃ f ∈ F, w.statePath f.1 area = .ok q ∧ f.2 = b) ∨
      ∃ a p, LastFor args a p ∧ ∃ F, u.get p = .ok F ∧ ∃ f ∈ F, w.statePath f.1 a = .ok q ∧ f.2 = b := by
  rw [openFolders_understood hu hfo]
  unfold Understood
  rw [show (cmdLineOf cm k id src args now hooks).area = area from asked_area hset ha]
  rfl

/-- **C177, in full**, for the area: the source folder is taken in as the area given with `--default-area`. -/
def C177_full : Prop := ∀ (u : Surroundings) (files : List InFile) (known : Str → Bool) (file : ConfFile) (g : Given) (k : Conf)
  (area id src : Str) (args : List Str) (now : Str) (hooks : Session) (F : List (Str × Bytes)) (f : Str × Bytes),
  settle known .create file g = .ok k → mget g.str "default-area".toList = some area → area ≠ [] → AnyOrder u →
  openFolders u (cmdLineOf .create k id src args now hooks) = .ok files → u.get src = .ok F → f ∈ F →
  ∃ i ∈ files, i.area = area ∧ i.path = f.1 ∧ i.data = f.2

/-- **C177 is violated**: `create --default-area` is accepted and ignored. -/
theorem C177_full_fails : ¬ C177_full := by
  intro h
  obtain ⟨i, h1, h2, _⟩ := h oneFile [⟨"content".toList, "c/d".toList, [7]⟩] (fun _ => true) {} { str := [("default-area".toList, "payload".toList)] } _
    "payload".toList "a".toList "src".toList [] "t".toList (exSession []) _ ("c/d".toList, [7]) rfl (by decide) (by decide)
    (fun _ => List.Perm.refl _) (by decide) rfl (by simp)
  rw [List.mem_singleton] at h1
  subst h1
  exact absurd h2 (by decide)

/-- **C177, echo**: exactly `update` removes what was not given again, and exactly if told so. -/
theorem C177_echo {known : Str → Bool} {cm : Command} {file : ConfFile} {g : Given} {k : Conf} {id src : Str} {args : List Str}
    {now : Str} {hooks : Session} (hset : settle known cm file g = .ok k) :
    ((cmdLineOf cm k id src args now hooks).session files).echo = true ↔
      cm = .update ∧ (mget g.on "echo".toList = some true ∨ mget file.on .updEcho = some true) := by
  show sessionEcho cm k = true ↔ _
  by_cases hc : cm = .update
  · subst hc
    exact Iff.trans (switch_or (C140_switches_partial hset (f := "echo") (sw := .updEcho) (b := true) (by simp [switchOptions])))
      ⟨fun h => ⟨rfl, h⟩, fun h => h.2⟩
  · have : sessionEcho cm k = false := by cases cm <;> first | rfl | exact absurd rfl hc
    rw [this]
    simp [hc]

/-! ## C178: the digest algorithm decides whether the object is accepted -/

/-- A session leaves the root inventory as it is, or stores one that is read with the same digest algorithm. -/
theorem session_root_alg (hco : Codec w) {inv : Inv} {n : Nat} (h : WF inv n) (hk : FixKeys inv) (hc : ValidComp inv.contentDir) {s : Session}
    (hs : SafeNames w s) (fs : FS) :
    mget (applyOps fs (session w inv s).obj.trace) rootInvPath = mget fs rootInvPath ∨
    ∃ b r, mget (applyOps fs (session w inv s).obj.trace) rootInvPath = some b ∧ w.dec b = some r ∧ r.inv.digestAlg = inv.digestAlg := by
  have hnew : ∀ op ∈ (sessionOpen w inv s).obj.trace, op.path ≠ rootInvPath := fun op hop =>
    newPath_ne_old hc (fun p a i hu hi => hs (p, a) hu i hi) (sessionOpen_trace h s op hop) (Or.inl rfl)
  unfold session
  cases he : (sessionOpen w inv s).err with
  | some e => rw [andThen_some he]; exact Or.inl (mget_applyOps_ne hnew)
  | none =>
    rw [andThen_none he]
    rcases closeObj_cases w (sessionOpen w inv s).obj s.exts with ⟨h1, _⟩ | ⟨_, _, _, h1, _⟩ | ⟨_, _, f, _, h1⟩
    · rw [h1]; exact Or.inl (mget_applyOps_ne hnew)
    · rw [h1]; exact Or.inl (mget_applyOps_ne hnew)
    · right
      rcases sessionOpen_good (w := w) h s.usesIn with hg | ⟨_, _, h2⟩
      swap
      · exact absurd he h2
      obtain ⟨k1, k2, k3, _⟩ := hg.facts (by omega) hk
      obtain ⟨r, hr, hR⟩ := hco.roundTrip _ k1 k2 k3
      refine ⟨_, r, ?_, hr, hR.digestAlg.symm.trans hg.alg⟩
      rw [h1]
      show mget (applyOps fs ((sessionOpen w inv s).obj.trace ++ _)) rootInvPath = _
      rw [applyOps_append, applyOps_append]
      rw [mget_applyOps_ne (t := extWrites s.exts)]
      · unfold rootWrites
        rw [applyOps_append, mget_writeFile_ne _ _ (root_ne_sidecar _).symm, mget_writeFile]
      · intro op hop
        obtain ⟨k, hk⟩ := mem_extWrites_path hop
        rw [hk]; exact ne_of_head (head_ext k) head_rootInv (by decide)

/-- what is accepted is stored with SHA-512 -/
theorem accepted_sha512 {fs : FS} {folder : Str} {F : List Fnd} (hF : checkFolder w env plain blank fs folder = .ok F) (hn : NoErrors F) :
    ∃ b r, mget (subFS fs folder) rootInvPath = some b ∧ w.dec b = some r ∧ r.inv.digestAlg = "sha512".toList := by
  obtain ⟨inv, f, g, _, hl, _, rfl⟩ := checkFolder_ok hF hn
  rw [noErrors_append] at hn
  have h512 := (loadRoot_good hl hn.1).2
  obtain ⟨b, r', x, y, hb, hr', hx, _, rfl, _⟩ := loadRoot_ok hl
  refine ⟨b, r', hb, hr', ?_⟩
  obtain ⟨_, _, _, _, _, he⟩ := finalize_ok (inv := x.1) (fs := x.2) hx
  have h512 : x.1.digestAlg = "sha512".toList := h512
  rw [he] at h512
  exact h512

/-- **C178**: with any digest algorithm but SHA-512 `add` makes an object that its own validation does not accept, whatever is added,
whether `add` reports success or not. -/
theorem C178_other {fs : FS} {id : Str} {s : Session} (hc : Codec w) (hcd : ValidComp (newInv id a.spec a.alg a.contentDir a.fixity).contentDir)
    (hs : SafeNames w s) (hex : objectExists ls fs id = .ok false) (ha : a.alg ≠ "sha512".toList) :
    ¬ ∃ F, checkFolder w env plain blank (applyOps fs (addCmd w env plain blank ls a fs id s).1) (rootPath ls id).1 = .ok F ∧ NoErrors F := by
  rintro ⟨F, hF, hn⟩
  obtain ⟨b, r, h1, h2, h3⟩ := accepted_sha512 hF hn
  have hadd : addCmd w env plain blank ls a fs id s = addObjectByPath w env plain blank ls a fs id s := by
    unfold addCmd; rw [hex]
  rw [hadd] at h1
  unfold addObjectByPath at h1
  rw [hex] at h1
  simp only at h1
  have hemp : mget fs (under (rootPath ls id).1 rootInvPath) = none := by
    by_contra hne
    rw [objectExists_of_file (objectExists_path hex) hne] at hex
    cases hex
  cases hcr : (createObject ls a fs id).2 with
  | error e =>
    rw [hcr] at h1
    simp only at h1
    rw [mget_subFS, createObject_root _ _ _ _ _ (Or.inr rfl), hemp] at h1
    cases h1
  | ok x =>
    obtain ⟨folder, inv⟩ := x
    obtain ⟨rfl, rfl, _, _⟩ := createObject_ok hcr
    rw [hcr] at h1
    simp only at h1
    rw [applyOps_append, mget_subFS] at h1
    unfold inFolder at h1
    simp only at h1
    rw [mget_lift_under _ _ _ _ _ (fun q => mget_subFS _ _ q)] at h1
    rcases session_root_alg (w := w) hc (newInv_wf _ _ _ _ _) ⟨List.nodup_nil, List.nodup_nil, fun _ _ h => nomatch h⟩ hcd hs
      (subFS (applyOps fs (createObject ls a fs id).1) (rootPath ls id).1) with g1 | ⟨b', r', g1, g2, g3⟩
    · rw [g1, mget_subFS, createObject_root _ _ _ _ _ (Or.inr rfl), hemp] at h1
      cases h1
    · rw [g1] at h1
      cases h1
      rw [g2] at h2
      cases h2
      exact ha (g3.symm.trans h3)

/-- what is opened has the digest algorithm of the root inventory, if there is one -/
theorem loaded_alg {fs : FS} {id : Str} {inv : Inv} {f : List Fnd} (hl : loadByID w env plain blank ls fs id = .ok (inv, f)) {b : Bytes}
    {r : RawInv} (hb : mget (subFS fs (rootPath ls id).1) rootInvPath = some b) (hr : w.dec b = some r) : inv.digestAlg = r.inv.digestAlg := by
  unfold loadByID at hl
  split at hl
  · cases hl
  · unfold loadByFolder at hl
    split at hl
    · unfold loadInventory at hl
      rw [hb] at hl
      simp only at hl
      obtain ⟨b', r', x, g, h1, h2, h3, _, h5, _⟩ := loadRoot_ok hl
      rw [hb] at h1
      cases h1
      rw [hr] at h2
      cases h2
      obtain ⟨_, _, _, _, _, he⟩ := finalize_ok (inv := x.1) (fs := x.2) h3
      rw [h5]
      show x.1.digestAlg = _
      rw [he]
    · cases hl

/-- **C178**: an object stored with another digest algorithm is not accepted after any `update` either. -/
theorem C178_for_good {fs : FS} {id : Str} {s : Session} {inv : Inv} {f : List Fnd} {N : Nat} (hc : Codec w)
    (hl : loadByID w env plain blank ls fs id = .ok (inv, f)) (h : WF inv N) (hk : FixKeys inv) (hcd : ValidComp inv.contentDir)
    (hs : SafeNames w s) (ha : inv.digestAlg ≠ "sha512".toList) :
    ¬ ∃ F, checkFolder w env plain blank (applyOps fs (updateCmd w env plain blank ls a fs id s).1) (rootPath ls id).1 = .ok F ∧ NoErrors F := by
  rintro ⟨F, hF, hn⟩
  obtain ⟨b1, r1, h1, h2, h3⟩ := accepted_sha512 hF hn
  have hold : ∀ t, (subFS (applyOps fs t) (rootPath ls id).1) = subFS fs (rootPath ls id).1 →
      mget (subFS (applyOps fs t) (rootPath ls id).1) rootInvPath = some b1 → False := by
    intro t ht hm
    rw [ht] at hm
    exact ha ((loaded_alg hl hm h2).trans h3)
  unfold updateCmd at h1
  cases hex : objectExists ls fs id with
  | error e => rw [hex] at h1; exact hold [] rfl h1
  | ok bb =>
    cases bb with
    | false => rw [hex] at h1; exact hold [] rfl h1
    | true =>
      unfold addObjectByPath at h1
      simp only [hex, hl] at h1
      unfold inFolder at h1
      simp only at h1
      rw [subFS_applyOps_lift] at h1
      rcases session_root_alg (w := w) hc h hk hcd hs (subFS fs (rootPath ls id).1) with g1 | ⟨b', r', g1, g2, g3⟩
      · rw [g1] at h1
        exact hold [] rfl h1
      · rw [g1] at h1
        cases h1
        rw [g2] at h2
        cases h2
        exact ha (g3.symm.trans h3)

theorem newCdir_valid {id : Str} (h : GoodArgs a id) : ValidComp (newInv id a.spec a.alg a.contentDir a.fixity).contentDir := by
  unfold Inv.contentDir
  split
  · exact ⟨by decide, by decide, by decide, by decide⟩
  · rename_i hne
    exact ⟨hne, h.contentDir⟩

/-- **C178, exactly**: what `create` makes is accepted if and only if the digest algorithm asked for is SHA-512. -/
theorem C178_exact {known : Str → Bool} {file : ConfFile} {g : Given} {k : Conf} {T : CfgText β} {folders : Bool}
    {docs : List (Str × Bytes)} {announce : Ext β → Bytes} {mgr : ExtMgr β} {layouts : List (Ext β)} {spec cd : Str} {al : List Str}
    {id src : Str} {args : List Str} {now : Str} {hooks : Session} {h : Bytes → Str} {dup : Bool} {d : Str}
    (hset : settle known .create file g = .ok k) (hd : AsksDigest file g d)
    (hc : Codec w) (hx : HexHash w) (hL : LowerHash w)
    (ht : ∀ t, w.time (w.time t) = w.time t) (hga : GoodArgs (createArgsOf k spec cd al) id) (hcd : GoodName cd)
    (hh : w.hash d = some h)
    (hfo : openFolders u (cmdLineOf .create k id src args now hooks) = .ok files)
    (had : AddsOnly ((cmdLineOf .create k id src args now hooks).session files) dup files)
    (hf : NewFiles w h (createArgsOf k spec cd al) id ((cmdLineOf .create k id src args now hooks).session files) files)
    (hex : objectExists ls (madeRoot (newRootOf k T folders docs announce mgr layouts)).fs id = .ok false)
    (hok : (createRun w env plain blank ls (newRootOf k T folders docs announce mgr layouts) (createArgsOf k spec cd al) u
      (cmdLineOf .create k id src args now hooks) ⟨[], []⟩).2.success = true) :
    (∃ F, checkFolder w env plain blank (createRun w env plain blank ls (newRootOf k T folders docs announce mgr layouts)
      (createArgsOf k spec cd al) u (cmdLineOf .create k id src args now hooks) ⟨[], []⟩).1.fs (rootPath ls id).1 = .ok F ∧ NoErrors F) ↔
    d = "sha512".toList := by
  obtain ⟨_, h2, h3⟩ := create_ran (c := cmdLineOf .create k id src args now hooks) hfo hex hok
  rw [show (cmdLineOf .create k id src args now hooks).id = id from rfl] at h2 h3
  rw [h3]
  have e := asked_digest hset hd spec cd al
  constructor
  · intro hacc
    by_contra hne
    exact C178_other hc (newCdir_valid hga) hf.names hex (by rw [e]; exact hne) hacc
  · intro hsha
    exact (C154_object_partial hc hx hL ht hga (by rw [e]; exact hh) hex had h2 hf).2 (e.trans hsha) hcd

/-- **C178, in full**: whatever digest algorithm `create` takes, the object it makes is accepted. -/
def C178_full : Prop := ∀ (w : World) (env : Env) (plain : Bool) (blank : Inv) (ls : List (Str → Res Str)) (n : NewRoot Layout)
  (known : Str → Bool) (file : ConfFile) (g : Given) (k : Conf) (spec : Str) (al : List Str) (u : Surroundings)
  (id src : Str) (args : List Str) (now : Str) (hooks : Session) (files : List InFile), Codec w → HexHash w → LowerHash w →
  (∀ t, w.time (w.time t) = w.time t) → settle known .create file g = .ok k → IsVersionNum (k.str .initVersion) →
  openFolders u (cmdLineOf .create k id src args now hooks) = .ok files →
  SafeNames w ((cmdLineOf .create k id src args now hooks).session files) →
  objectExists ls (madeRoot n).fs id = .ok false →
  (createRun w env plain blank ls n (createArgsOf k spec "content".toList al) u (cmdLineOf .create k id src args now hooks) ⟨[], []⟩).2.success = true →
  ∃ F, checkFolder w env plain blank (createRun w env plain blank ls n (createArgsOf k spec "content".toList al) u
    (cmdLineOf .create k id src args now hooks) ⟨[], []⟩).1.fs (rootPath ls id).1 = .ok F ∧ NoErrors F

end

/-! ## Concrete cases -/

/-- `create --digest md5` -/
def askGiven (d : String) : Given := { str := [("digest".toList, d.toList), ("fixity".toList, "md5".toList)] }

def askKnown : Str → Bool := fun a => decide (a = "sha512".toList ∨ a = "md5".toList)

def askConf (d : String) : Conf := settled .create {} (askGiven d)

theorem ask_settled : settle askKnown .create {} (askGiven "md5") = .ok (askConf "md5") ∧
    settle askKnown .create {} (askGiven "sha512") = .ok (askConf "sha512") := ⟨rfl, rfl⟩

def askCmd (d : String) : CmdLine := cmdLineOf .create (askConf d) "a".toList "src".toList [] "t".toList (exSession [])

def askNew (d : String) : NewRoot Layout := newRootOf (askConf d) defText true [] initArgs11.announce defMgr []

noncomputable def askRun (d : String) : RootDisk × Finish :=
  createRun fixWorld exEnv true (blankInv [] []) flatLayout (askNew d) (createArgsOf (askConf d) "spec".toList "content".toList
    ["md5".toList, "sha512".toList]) oneFile (askCmd d) ⟨[], []⟩

def askFiles : List InFile := [⟨"content".toList, "c/d".toList, [7]⟩]

theorem ask_open : openFolders oneFile (askCmd "md5") = .ok askFiles ∧ openFolders oneFile (askCmd "sha512") = .ok askFiles := by decide

theorem ask_names (d : String) : SafeNames fixWorld ((askCmd d).session askFiles) := by
  intro x hx i hi
  have : x = ("c/d".toList, "content".toList) := by
    simpa [Session.uses, askCmd, askFiles, cmdLineOf, CmdLine.session, addAll, exSession, callsUses, Call.uses] using hx
  subst this
  cases hi
  exact ⟨1, by decide⟩

/-- **C178 is violated**: `create --digest md5` reports success, and the object it makes is not accepted. -/
theorem C178_full_fails : ¬ C178_full := by
  intro hf
  have h := hf fixWorld exEnv true (blankInv [] []) flatLayout (askNew "md5") askKnown {} (askGiven "md5") _ "spec".toList
    ["md5".toList, "sha512".toList] oneFile "a".toList "src".toList [] "t".toList (exSession []) askFiles fixWorld_codec fixWorld_hex
    fixWorld_lower (fun _ => rfl) ask_settled.1 ⟨"1".toList, "1".toList, by decide⟩ ask_open.1 (ask_names "md5") (by decide) (by decide)
  obtain ⟨_, _, e⟩ := create_ran (w := fixWorld) (env := exEnv) (plain := true) (blank := blankInv [] []) (ls := flatLayout)
    (n := askNew "md5") (a := createArgsOf (askConf "md5") "spec".toList "content".toList ["md5".toList, "sha512".toList])
    (u := oneFile) (c := askCmd "md5") ask_open.1 (by decide) (by decide)
  have e : (createRun fixWorld exEnv true (blankInv [] []) flatLayout (askNew "md5") (createArgsOf (askConf "md5") "spec".toList
    "content".toList ["md5".toList, "sha512".toList]) oneFile (cmdLineOf .create (askConf "md5") "a".toList "src".toList [] "t".toList
    (exSession [])) ⟨[], []⟩).1.fs = _ := e
  rw [e] at h
  exact C178_other fixWorld_codec ⟨by decide, by decide, by decide, by decide⟩ (ask_names "md5") (by decide) (by decide) h

def askArgs : CreateArgs := createArgsOf (askConf "sha512") "spec".toList "content".toList ["md5".toList, "sha512".toList]

theorem askArgs_good : GoodArgs askArgs "a".toList :=
  ⟨by decide, ⟨"1".toList, "1".toList, by decide⟩, by decide, by decide, Or.inl (by decide)⟩

noncomputable def askInv0 : Inv := newInv "a".toList askArgs.spec askArgs.alg askArgs.contentDir askArgs.fixity

theorem ask_clean : CleanSession fixWorld 0 0 askInv0 ((askCmd "sha512").session askFiles) where
  names := ask_names "sha512"
  rounds := rfl
  distinct := by
    have : (targets fixWorld { askInv0 with head := verName askInv0.paddingLength ((0 + 1 : Nat) : Int) }
      ((exSession []).before ++ (addAll true askFiles) ++ (exSession []).after)).Nodup := by decide
    exact this
  completes := by decide
  modified := by decide
  paths := headPaths_of (p := 0) (N := 1) (validInv_of (by decide))
  width := by decide

/-- the hypotheses of `C177_create_partial` are met by `create --digest sha512 --fixity md5` -/
theorem ask_made : ∃ i f, loadByID fixWorld exEnv true (blankInv [] []) flatLayout (askRun "sha512").1.fs "a".toList = .ok (i, f) ∧
    i.digestAlg = "sha512".toList ∧
    ∀ x m p, (x, m) ∈ i.manifest → p ∈ m → ∃ mm fd ps, ("md5".toList, mm) ∈ i.fixity ∧ (fd, ps) ∈ mm ∧ p ∈ ps := by
  obtain ⟨_, i, f, h1, _, h2⟩ := C177_create_partial (w := fixWorld) (env := exEnv) (plain := true) (blank := blankInv [] []) (ls := flatLayout)
    (u := oneFile) (T := defText) (folders := true) (docs := []) (announce := initArgs11.announce) (mgr := defMgr) (layouts := [])
    (args := []) (src := "src".toList) (now := "t".toList) (hooks := exSession []) (id := "a".toList)
    ask_settled.2 fixWorld_codec fixWorld_hex fixWorld_lower (fun _ => rfl) askArgs_good ask_open.2 (by decide) ask_clean (by decide)
  obtain ⟨h3, h4⟩ := h2 "sha512".toList (.inl ⟨by decide, by decide⟩)
  refine ⟨i, f, h1, h3, fun x m p hm hp => ?_⟩
  obtain ⟨_, _, _, _, _, h5⟩ := h4 x m p hm hp
  obtain ⟨mm, fd, ps, _, h6, h7, h8, _⟩ := h5 "md5".toList ⟨"md5".toList, by decide, "md5".toList, by decide, by decide, by decide⟩ (by decide)
  exact ⟨mm, fd, ps, h6, h7, h8⟩

theorem ask_new {h : Bytes → Str} : NewFiles fixWorld h askArgs "a".toList ((askCmd "sha512").session askFiles) askFiles where
  some := by decide
  names := ask_names "sha512"
  targets := by
    have : (targets fixWorld { askInv0 with head := "v1".toList } (addAll true askFiles)).Nodup := by decide
    exact this
  paths := by
    unfold DistinctPaths askFiles
    simp
  safe := by
    intro f hf q hq
    rw [rtState.1 hq]
    have : ∀ f ∈ askFiles, ∀ seg ∈ splitOn '/' f.path, seg ≠ [] ∧ seg ≠ ".".toList ∧ seg ≠ "..".toList := by decide
    exact this f hf
  noConflict := by
    rintro f hf g hg x y hx hy ⟨t, ht⟩
    rw [rtState.1 hx, rtState.1 hy] at ht
    have : ∀ f ∈ askFiles, ∀ g ∈ askFiles, ¬ (f.path ++ ['/']) <+: g.path := by decide
    exact this f hf g hg ⟨t, by rw [ht]; simp⟩
  noCollision := by
    intro f hf g hg _
    unfold askFiles at hf hg
    rw [List.mem_singleton] at hf hg
    rw [hf, hg]

/-- the hypotheses of `C178_exact` are met by the same command -/
example : ∃ F, checkFolder fixWorld exEnv true (blankInv [] []) (askRun "sha512").1.fs (rootPath flatLayout "a".toList).1 = .ok F ∧ NoErrors F := by
  obtain ⟨h, hh⟩ : ∃ h, fixWorld.hash "sha512".toList = some h := ⟨fun b => 'a' :: List.replicate b.length '0', by unfold fixWorld; simp⟩
  exact (C178_exact (w := fixWorld) (env := exEnv) (plain := true) (blank := blankInv [] []) (ls := flatLayout)
    (u := oneFile) (T := defText) (folders := true) (docs := []) (announce := initArgs11.announce) (mgr := defMgr) (layouts := [])
    (args := []) (src := "src".toList) (now := "t".toList) (hooks := exSession []) (id := "a".toList) (dup := false)
    (d := "sha512".toList) ask_settled.2 (.inl ⟨by decide, by decide⟩) fixWorld_codec fixWorld_hex fixWorld_lower (fun _ => rfl) askArgs_good
    (by unfold GoodName; decide) hh ask_open.2 ⟨rfl, rfl, rfl, rfl, rfl⟩ ask_new (by decide) (by decide)).2 rfl

end Gocfl
