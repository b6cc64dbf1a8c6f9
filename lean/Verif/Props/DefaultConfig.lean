import Verif.Props.Processes

/-! # C181: an archive with the default configuration and ids as URNs -/

namespace Gocfl

/-- An id of letters, digits, hyphens, full stops and colons that begins with a letter or digit, as URNs do; at most 127
characters; not the name of the folder of the extensions. -/
structure UrnId (id : Str) : Prop where
  first : ∃ c r, id = c :: r ∧ alnum c = true
  chars : ∀ c ∈ id, alnum c = true ∨ c = '-' ∨ c = '.' ∨ c = ':'
  length : id.length ≤ 127
  free : id ≠ "extensions".toList

/-- the folder for such an id -/
def urnFolder (id : Str) : Str := id.map (fun c => if c = ':' then '_' else c)

/-- The storage root is made with the configuration that comes with the program (/repo/data/defaultextensions/storageroot), which is
used if there is no other. -/
structure DefaultConfig (S : Setup) : Prop where
  hash : S.hashes "sha512".toList ≠ none
  manager : ∃ report, createExtensions (makeLayout S.hashes) report (prSrc prDefFiles) = .ok (S.new.mgr, false)
  text : ∀ e ∈ mgrFiles S.new.mgr, S.new.T.dec (S.new.T.enc e.2) = some e.2
  docs : ∀ d ∈ S.new.init.docs, '/' ∉ d.1 ∧ '=' ∉ d.1

/-- A run of commands, each a process of its own, on ids of a kind: `init` or `create`, then `add`, `update` and commands that fail or
are interrupted. -/
inductive UserRun (S : Setup) (I : Str → Prop) (D : Str → Session → History → History → Prop) : RootDisk → (Str → History) → Prop where
  | init {s : RootDisk} (ok : initRoot S.new.T S.new.folders S.new.init S.new.mgr S.new.layouts ⟨[], []⟩ = (s, none)) :
      UserRun S I D s (fun _ => [])
  | create {u : Surroundings} {c : CmdLine} {files : List InFile} {H' : History} (folders : openFolders u c = .ok files)
      (id : I c.id) (args : GoodArgs S.args c.id) (good : D c.id (c.session files) [] H')
      (ok : (createRun S.w S.env S.plain S.blank (S.layouts S.new.mgr) S.new S.args u c ⟨[], []⟩).2.success = true) :
      UserRun S I D (createRun S.w S.env S.plain S.blank (S.layouts S.new.mgr) S.new S.args u c ⟨[], []⟩).1
        (fun i => if i = c.id then H' else [])
  | add {s : RootDisk} {H : Str → History} {m : ExtMgr LayoutState} {v : Str} (empty : Bool) (id : Str) (se : Session) (H' : History)
      (run : UserRun S I D s H) (opened : S.opens empty s = .ok (v, m)) (hid : I id)
      (args : GoodArgs S.args id) (new : objectExists (S.layouts m) s.fs id = .ok false) (fresh : H id = [])
      (good : D id se [] H') (ok : (addCmd S.w S.env S.plain S.blank (S.layouts m) S.args s.fs id se).2 = none) :
      UserRun S I D ⟨applyOps s.fs (addCmd S.w S.env S.plain S.blank (S.layouts m) S.args s.fs id se).1, s.made⟩
        (fun i => if i = id then H' else H i)
  | update {s : RootDisk} {H : Str → History} {m : ExtMgr LayoutState} {v : Str} (empty : Bool) (id : Str) (se : Session) (H' : History)
      (run : UserRun S I D s H) (opened : S.opens empty s = .ok (v, m)) (there : H id ≠ [])
      (good : D id se (H id) H') (ok : (updateCmd S.w S.env S.plain S.blank (S.layouts m) S.args s.fs id se).2 = none) :
      UserRun S I D ⟨applyOps s.fs (updateCmd S.w S.env S.plain S.blank (S.layouts m) S.args s.fs id se).1, s.made⟩
        (fun i => if i = id then H' else H i)
  | broken {s : RootDisk} {H : Str → History} {m : ExtMgr LayoutState} {v : Str} (empty : Bool) (id : Str) (se : Session) (t : List FsOp)
      (run : UserRun S I D s H) (opened : S.opens empty s = .ok (v, m)) (hid : I id) (fresh : H id = [])
      (crash : CrashPrefix t (addObjectByPath S.w S.env S.plain S.blank (S.layouts m) S.args s.fs id se).1) :
      UserRun S I D ⟨applyOps s.fs t, s.made⟩ H

/-! ## The folder of an id -/

theorem alnum_facts {c : Char} (h : alnum c = true) : dcWhite c = false ∧ dcDanger c = false ∧ c ≠ '/' ∧ c ≠ '.' ∧ c ≠ '-' ∧ c ≠ '~' ∧ c ≠ ':' ∧ c ≠ '_' := by
  obtain ⟨h1, _⟩ := alnum_not_all h
  unfold dcAll at h1
  rw [Bool.or_eq_false_iff] at h1
  refine ⟨h1.2, h1.1, ?_, ?_, ?_, ?_, ?_, ?_⟩ <;> rintro rfl <;> revert h <;> decide

theorem urn_no_slash {id : Str} (h : UrnId id) : '/' ∉ id := by
  intro hm
  rcases h.chars _ hm with h1 | h1 | h1 | h1
  · exact absurd h1 (by decide)
  · exact absurd h1 (by decide)
  · exact absurd h1 (by decide)
  · exact absurd h1 (by decide)

theorem urnFolder_chars {id : Str} (h : UrnId id) : ∀ c ∈ urnFolder id, alnum c = true ∨ c = '-' ∨ c = '.' ∨ c = '_' := by
  intro c hc
  unfold urnFolder at hc
  obtain ⟨x, hx, rfl⟩ := List.mem_map.1 hc
  split
  · exact .inr (.inr (.inr rfl))
  · rename_i hne
    rcases h.chars x hx with h1 | h1 | h1 | h1
    · exact .inl h1
    · exact .inr (.inl h1)
    · exact .inr (.inr (.inl h1))
    · exact absurd h1 hne

theorem urn_seg {id : Str} (h : UrnId id) : dcSegPlain "_".toList " ".toList id = urnFolder id := by
  have h1 : id.flatMap (fun c => if dcWhite c then " ".toList else [c]) = id := by
    have : ∀ c ∈ id, dcWhite c = false := by
      intro c hc
      rcases h.chars c hc with h1 | rfl | rfl | rfl
      · exact (alnum_facts h1).1
      · decide
      · decide
      · decide
    clear h
    induction id with
    | nil => rfl
    | cons c r ih =>
      rw [List.flatMap_cons, this c List.mem_cons_self]
      simp only [Bool.false_eq_true, if_false, List.singleton_append, List.cons.injEq, true_and]
      exact ih (fun x hx => this x (List.mem_cons_of_mem _ hx))
  have h2 : id.flatMap (fun c => if dcDanger c then "_".toList else [c]) = urnFolder id := by
    have : ∀ c ∈ id, dcDanger c = decide (c = ':') := by
      intro c hc
      rcases h.chars c hc with h1 | rfl | rfl | rfl
      · rw [(alnum_facts h1).2.1, decide_eq_false (alnum_facts h1).2.2.2.2.2.2.1]
      · decide
      · decide
      · decide
    clear h h1
    unfold urnFolder
    induction id with
    | nil => rfl
    | cons c r ih =>
      rw [List.flatMap_cons, this c List.mem_cons_self, List.map_cons, ih (fun x hx => this x (List.mem_cons_of_mem _ hx))]
      by_cases hc : c = ':'
      · simp [hc]
      · simp [hc]
  have hch := urnFolder_chars h
  have hw : ∀ c ∈ urnFolder id, dcTrail c = false ∧ c ≠ '\n' := by
    intro c hc
    rcases hch c hc with h3 | rfl | rfl | rfl
    · refine ⟨?_, by rintro rfl; revert h3; decide⟩
      unfold dcTrail
      rw [(alnum_facts h3).1, Bool.false_or, decide_eq_false_iff_not]
      unfold alnum at h3
      simp only [Bool.or_eq_true, decide_eq_true_eq] at h3
      omega
    · decide
    · decide
    · decide
  obtain ⟨c, r, hcr, hal⟩ := h.first
  obtain ⟨f1, f2, f3, f4, f5, f6, f7, f8⟩ := alnum_facts hal
  have hfo : urnFolder id = c :: urnFolder r := by
    rw [hcr]; unfold urnFolder; rw [List.map_cons, if_neg f7]
  have h3 : dcTrim (urnFolder id) = urnFolder id := by
    unfold dcTrim
    have h4 : (urnFolder id).dropWhile dcLead = urnFolder id := by
      rw [hfo, List.dropWhile_cons, if_neg]
      unfold dcLead
      rw [f1]; simp [f5, f6]
    have h5 : ((urnFolder id).reverse.dropWhile dcTrail) = (urnFolder id).reverse := by
      cases hrev : (urnFolder id).reverse with
      | nil => rfl
      | cons x l =>
        rw [List.dropWhile_cons, if_neg]
        have : x ∈ urnFolder id := by rw [← List.mem_reverse, hrev]; exact List.mem_cons_self
        rw [(hw x this).1]; simp
    simp only [h4, h5, List.reverse_reverse]
    rw [if_neg (fun hm => (hw _ hm).2 rfl)]
  unfold dcSegPlain
  simp only [h1, h2, h3]
  rw [if_neg]
  rw [hfo]
  unfold allPeriods
  simp [f4]

theorem byteLen_urn {id : Str} (h : UrnId id) : byteLen (urnFolder id) = id.length := by
  have hl : (urnFolder id).length = id.length := by unfold urnFolder; rw [List.length_map]
  rw [← hl]
  have hb : ∀ c ∈ urnFolder id, runeBytes c = 1 := by
    intro c hc
    rcases urnFolder_chars h c hc with h1 | rfl | rfl | rfl
    · unfold runeBytes
      rw [if_pos]
      unfold alnum at h1
      simp only [Bool.or_eq_true, decide_eq_true_eq] at h1
      omega
    · decide
    · decide
    · decide
  unfold byteLen
  generalize urnFolder id = l at hb
  induction l with
  | nil => rfl
  | cons c l ih =>
    rw [List.map_cons, List.sum_cons, hb c List.mem_cons_self, ih (fun x hx => hb x (List.mem_cons_of_mem _ hx)), List.length_cons]
    omega

/-- the configuration of direct-clean in the default configuration -/
def defClean : DCCfg := ⟨32000, 127, "_".toList, " ".toList, false, "fallback".toList, 0, 0⟩

theorem urn_build (hash : Str → Str) {id : Str} (h : UrnId id) : dcBuild hash defClean id = .ok (urnFolder id) := by
  have hne : id ≠ [] := by
    obtain ⟨c, r, hcr, _⟩ := h.first
    rw [hcr]; exact List.cons_ne_nil _ _
  have hfne : urnFolder id ≠ [] := fun h1 => hne (List.map_eq_nil_iff.1 h1)
  have hseg : dcSeg defClean id = urnFolder id := urn_seg h
  have hlen := byteLen_urn h
  have hl := h.length
  unfold dcBuild
  rw [splitOn_noSep (urn_no_slash h)]
  have h1 : dcSegs defClean [id] = some [urnFolder id] := by
    unfold dcSegs
    rw [if_neg hne, hseg, if_neg]
    · simp only [dcSegs, Option.map_some, if_neg hfne]
    · rw [hlen]; show ¬ ((id.length : Int) > 127); omega
  have hj : joinWith '/' [urnFolder id] = urnFolder id := rfl
  rw [h1]
  simp only [hj]
  rw [if_neg]
  rw [hlen]; show ¬ ((id.length : Int) > 32000); omega

theorem urnFolder_no_slash {id : Str} (h : UrnId id) : '/' ∉ urnFolder id := by
  intro hm
  rcases urnFolder_chars h _ hm with h1 | h1 | h1 | h1
  · exact absurd h1 (by decide)
  · exact absurd h1 (by decide)
  · exact absurd h1 (by decide)
  · exact absurd h1 (by decide)

theorem urnFolder_inj {id id' : Str} (h : ∀ c ∈ id, c ≠ '_') (h' : ∀ c ∈ id', c ≠ '_') (he : urnFolder id = urnFolder id') : id = id' := by
  induction id generalizing id' with
  | nil => exact (List.map_eq_nil_iff.1 he.symm).symm
  | cons c r ih =>
    cases id' with
    | nil => cases he
    | cons c' r' =>
      unfold urnFolder at he
      rw [List.map_cons, List.map_cons, List.cons.injEq] at he
      have h1 : c = c' := by
        have a := h c List.mem_cons_self
        have b := h' c' List.mem_cons_self
        have e := he.1
        by_cases hc : c = ':'
        · by_cases hc' : c' = ':'
          · rw [hc, hc']
          · rw [if_pos hc, if_neg hc'] at e; exact absurd e.symm b
        · by_cases hc' : c' = ':'
          · rw [if_neg hc, if_pos hc'] at e; exact absurd e a
          · rw [if_neg hc, if_neg hc'] at e; exact e
      rw [h1, ih (fun x hx => h x (List.mem_cons_of_mem _ hx)) (fun x hx => h' x (List.mem_cons_of_mem _ hx)) he.2]

theorem urn_no_underscore {id : Str} (h : UrnId id) : ∀ c ∈ id, c ≠ '_' := by
  intro c hc
  rcases h.chars c hc with h1 | rfl | rfl | rfl
  · exact (alnum_facts h1).2.2.2.2.2.2.2
  · decide
  · decide
  · decide

/-! ## The default configuration -/

theorem scanFolders_congr {β : Type} {make make' : Str → Option β → Option β} {report : Bool} {l : List (Str × Option (ExtCfg β))}
    (h : ∀ e ∈ l, scanFolder make e = scanFolder make' e) : scanFolders make report l = scanFolders make' report l := by
  induction l with
  | nil => rfl
  | cons e l ih =>
    unfold scanFolders
    rw [h e List.mem_cons_self, ih (fun x hx => h x (List.mem_cons_of_mem _ hx))]

theorem createExt_congr {β : Type} {make make' : Str → Option β → Option β} {c : ExtCfg β} (h : make c.name c.rest = make' c.name c.rest) :
    createExt make c = createExt make' c := by
  unfold createExt; rw [h]

theorem defClean_eq : prDefClean = .directClean "sha512".toList defClean := by decide

theorem default_manager {S : Setup} (d : DefaultConfig S) : S.new.mgr = prMgr prDef := by
  obtain ⟨report, h⟩ := d.manager
  obtain ⟨g, hg⟩ := Option.ne_none_iff_exists'.1 d.hash
  have hm : ∀ e ∈ prSrc prDefFiles, scanFolder (makeLayout S.hashes) e = scanFolder (makeLayout prHashes) e := by
    intro e he
    have hcl : makeLayout S.hashes nmDirectClean (some (.inl ⟨nmDirectClean, [(kMaxPath, 32000), (kMaxSeg, 127)],
        [(kRepl, "_".toList), (kWhite, " ".toList)], []⟩)) = some (.inr prDefClean) := by
      have e1 : loadLayout S.hashes ⟨nmDirectClean, [(kMaxPath, 32000), (kMaxSeg, 127)], [(kRepl, "_".toList), (kWhite, " ".toList)], []⟩ =
          needHash S.hashes "sha512".toList prDefClean := rfl
      unfold makeLayout LayoutState.file
      simp only
      rw [e1]
      unfold needHash
      rw [hg]
    simp only [prSrc, prDefFiles, List.map_cons, List.map_nil, List.cons_append, List.nil_append, List.mem_cons, List.not_mem_nil,
      or_false] at he
    have key : ∀ (n : Str) (c : ExtCfg LayoutState), makeLayout S.hashes c.name c.rest = makeLayout prHashes c.name c.rest →
        scanFolder (makeLayout S.hashes) (n, some c) = scanFolder (makeLayout prHashes) (n, some c) := by
      intro n c hc
      unfold scanFolder
      simp only [Option.bind_some]
      rw [createExt_congr hc]
    rcases he with rfl | rfl | rfl | rfl | rfl
    · exact key _ _ rfl
    · refine key _ _ (hcl.trans ?_)
      decide
    · exact key _ _ rfl
    · rfl
    · rfl
  have h2 : createExtensions (makeLayout S.hashes) report (prSrc prDefFiles) = .ok (prMgr prDef, false) := by
    unfold createExtensions
    rw [scanFolders_congr hm]
    show createExtensions (makeLayout prHashes) report (prSrc prDefFiles) = .ok (prMgr prDef, false)
    cases report <;> decide
  have h3 := h2.symm.trans h
  simp only [Except.ok.injEq, Prod.mk.injEq, and_true] at h3
  exact h3.symm

theorem default_good {S : Setup} (d : DefaultConfig S) : GoodSetup S := by
  have hm := default_manager d
  obtain ⟨report, h⟩ := d.manager
  refine ⟨⟨report, prSrc prDefFiles, ?_, by decide, by decide, h⟩, Or.inl (by rw [hm]; decide), d.text, d.docs⟩
  intro f c hc
  simp only [prSrc, prDefFiles, List.map_cons, List.map_nil, List.cons_append, List.nil_append, List.mem_cons, List.not_mem_nil,
      or_false] at hc
  rcases hc with hc | hc | hc | hc | hc <;> cases hc <;> rfl

/-- whatever the sorting does, direct-clean is the layout in use -/
theorem default_used (org : Organiser) : usedNames org (prMgr prDef) = [nmDirectClean] := by
  have hr := org.organized (mget (prMgr prDef).exclusion hookRoot) (mget (prMgr prDef).sort hookRoot) (mkeys (layoutExts (prMgr prDef)))
  have hl : mkeys (layoutExts (prMgr prDef)) = [nmFlatOmit, nmDirectClean, nmPathDirect] := by decide
  unfold usedNames
  rw [hl] at hr ⊢
  generalize org.run (mget (prMgr prDef).exclusion hookRoot) (mget (prMgr prDef).sort hookRoot) [nmFlatOmit, nmDirectClean, nmPathDirect] = r at hr
  have hr : Organized id (some [[nmDirectClean, nmHashId, nmHashed, nmFlatDirect, nmFlatOmit, nmPairtree, nmPathDirect]])
    (some [nmDirectClean]) [nmFlatOmit, nmDirectClean, nmPathDirect] r := hr
  have hall : ∀ e ∈ [nmFlatOmit, nmDirectClean, nmPathDirect],
      e ∈ [nmDirectClean, nmHashId, nmHashed, nmFlatDirect, nmFlatOmit, nmPairtree, nmPathDirect] := by decide
  obtain ⟨e, h1, h2, h3, h4⟩ := C55_best_remains_partial hr (by simp [DisjointGroups]) (by decide) _ List.mem_cons_self
    ⟨nmDirectClean, by decide, by decide⟩
  have hsub := (C55_at_most_one hr).2.1
  simp only [id] at h1 h4
  rw [List.filter_eq_self.2 (fun x hx => decide_eq_true (hall x (hsub.subset hx)))] at h1
  have he : e = nmDirectClean := by
    have h5 := h4 nmDirectClean (by decide) (by decide)
    have h6 : ∀ x ∈ [nmFlatOmit, nmDirectClean, nmPathDirect],
        [nmDirectClean, nmHashId, nmHashed, nmFlatDirect, nmFlatOmit, nmPairtree, nmPathDirect].idxOf x ≤
        [nmDirectClean, nmHashId, nmHashed, nmFlatDirect, nmFlatOmit, nmPairtree, nmPathDirect].idxOf nmDirectClean →
        x = nmDirectClean := by decide
    exact h6 e h2 h5
  rw [h1, he]

theorem default_lasting {S : Setup} (d : DefaultConfig S) : LastingLayouts S := by
  have hm := default_manager d
  obtain ⟨g, hg⟩ := Option.ne_none_iff_exists'.1 d.hash
  have hcl : loadLayout S.hashes (writeConfig prDefClean) = .ok prDefClean := by
    have e1 : loadLayout S.hashes (writeConfig prDefClean) = needHash S.hashes "sha512".toList prDefClean := rfl
    rw [e1]; unfold needHash; rw [hg]
  constructor
  · intro n l h
    rw [hm] at h
    simp only [prMgr, prDef, List.map_cons, List.map_nil, List.mem_cons, List.not_mem_nil, or_false] at h
    rcases h with h | h | h <;> cases h
    · exact ⟨.flatOmit [], rfl⟩
    · exact ⟨prDefClean, hcl⟩
    · exact ⟨.pathDirect, rfl⟩
  · intro n hn l h
    rw [hm] at h hn
    rw [default_used, List.mem_singleton] at hn
    subst hn
    simp only [prMgr, prDef, List.map_cons, List.map_nil, List.mem_cons, List.not_mem_nil, or_false] at h
    rcases h with h | h | h
    · exact absurd (congrArg Ext.name h) (show nmDirectClean ≠ nmFlatOmit by decide)
    · cases h
      exact ⟨prDefClean, hcl, fun _ => rfl⟩
    · exact absurd (congrArg Ext.name h) (show nmDirectClean ≠ nmPathDirect by decide)

theorem default_layouts {S : Setup} (d : DefaultConfig S) : S.layouts S.new.mgr = [layoutPath S.hashes (.directClean "sha512".toList defClean)] := by
  rw [← defClean_eq]
  refine usedLayouts_one (layoutExts_nodup (default_good d).exts) (n := nmDirectClean) ?_ ?_
  · rw [default_manager d, default_used]
  · rw [default_manager d]
    exact List.mem_cons_of_mem _ List.mem_cons_self

theorem default_root {S : Setup} (d : DefaultConfig S) {id : Str} (h : UrnId id) :
    rootPath (S.layouts S.new.mgr) id = (urnFolder id, false) := by
  rw [default_layouts d]
  simp only [rootPath, layoutPath]
  rw [urn_build _ h]
  have hne : urnFolder id ≠ [] := by
    obtain ⟨c, r, hcr, _⟩ := h.first
    intro h1
    rw [hcr] at h1
    exact absurd (List.map_eq_nil_iff.1 h1) (List.cons_ne_nil _ _)
  simp only [if_neg hne]

theorem urn_clear {id : Str} (h : UrnId id) : ¬ InExtensions (urnFolder id) := by
  rintro (h1 | ⟨r, h1⟩)
  · refine h.free (urnFolder_inj (urn_no_underscore h) (by decide) ?_)
    rw [h1]; decide
  · refine urnFolder_no_slash h ?_
    rw [h1]
    exact List.mem_append_left _ (by decide)

theorem apart_no_slash {f g : Str} (hf : '/' ∉ f) (hg : '/' ∉ g) (hne : f ≠ g) : Apart f g := by
  refine ⟨hne, fun r h => hf ?_, fun r h => hg ?_⟩ <;> rw [h] <;> unfold under <;> simp

theorem urn_apart {id id' : Str} (h : UrnId id) (h' : UrnId id') (hne : id ≠ id') : Apart (urnFolder id) (urnFolder id') :=
  apart_no_slash (urnFolder_no_slash h) (urnFolder_no_slash h')
    (fun he => hne (urnFolder_inj (urn_no_underscore h) (urn_no_underscore h') he))

/-! ## Runs -/

/-- the files of a new storage root lie at its top or in `extensions` -/
theorem init_empty {S : Setup} (d : DefaultConfig S) {id : Str} (h : UrnId id) :
    subFS (initRoot S.new.T S.new.folders S.new.init S.new.mgr S.new.layouts ⟨[], []⟩).1.fs (urnFolder id) = [] := by
  unfold initRoot
  split
  · rename_i hv
    rw [if_pos ⟨rfl, rfl⟩]
    obtain ⟨report, src, ho, hn, hs, hc⟩ := (default_good d).source
    have hok := initOk_of (a := S.new.init) hv d.docs makeLayout_slash ho hn hs hc (default_good d).rules
    obtain ⟨_, _, h3, _⟩ := init_state hok (layouts := S.new.layouts) d.text rfl
    by_contra hne
    obtain ⟨⟨q, b⟩, hq⟩ := List.exists_mem_of_ne_nil _ hne
    unfold subFS at hq
    obtain ⟨⟨p, b'⟩, hp, hq⟩ := List.mem_filterMap.1 hq
    obtain ⟨r, hr, _⟩ := Option.map_eq_some_iff.1 hq
    have hpu := stripFolder_eq_some.1 hr
    have hk := h3 p (mem_mkeys_mget.1 (List.mem_map.2 ⟨(p, b'), hp, rfl⟩))
    have hsl : '/' ∈ p := by
      have : p = under (urnFolder id) r := hpu
      rw [this]; unfold under; simp
    obtain ⟨x, hx, h1⟩ := List.mem_map.1 hk
    rcases List.mem_append.1 hx with hx | hx
    · exact initTop_noSlash hok _ (List.mem_map.2 ⟨x, hx, rfl⟩) (h1 ▸ hsl)
    · rcases List.mem_append.1 hx with hx | hx
      · obtain ⟨y, _, rfl⟩ := List.mem_map.1 hx
        have h2 : "extensions".toList ++ '/' :: (y.1 ++ "/config.json".toList) = urnFolder id ++ '/' :: r := h1.trans hpu
        exact urn_clear h (.inl (first_part (by decide) (urnFolder_no_slash h) h2).symm)
      · obtain ⟨y, _, rfl⟩ := List.mem_map.1 hx
        rw [← h1] at hsl
        exact absurd hsl (by show '/' ∉ "ocfl_layout.json".toList; decide)
  · rfl

/-- a run on such ids is a run of processes -/
theorem userRun_proc {S : Setup} {D : Str → Session → History → History → Prop} (d : DefaultConfig S) {s : RootDisk} {H : Str → History}
    (hr : UserRun S UrnId D s H) : ProcRun S D s H ∧ ∀ id, H id ≠ [] → UrnId id := by
  have G := default_good d
  have L := default_lasting d
  have hls : S.layouts (restarted S.hashes S.new.mgr) = S.layouts S.new.mgr := usedLayouts_restarted G.exts L.reloads L.survive
  induction hr with
  | init ok => exact ⟨.init ok, fun _ h => absurd rfl h⟩
  | @create u c files H' hfo hid hga hD hok =>
    refine ⟨.create hfo hga ?_ ?_ hD hok, ?_⟩
    · unfold objectExists
      rw [default_root d hid]
      simp only [Bool.false_eq_true, if_false]
      rw [init_empty d hid]
      rfl
    · rw [default_root d hid]; exact urn_clear hid
    · intro id h
      by_cases he : id = c.id
      · rw [he]; exact hid
      · exact absurd (if_neg he) h
  | @add s H m v empty id se H' _ hopen hid hga hex hfresh hD hok ih =>
    have hm := ((procRun_keep G L ih.1).1 empty).symm.trans hopen
    have hm' : m = restarted S.hashes S.new.mgr := by cases hm; rfl
    refine ⟨.add empty id se H' ih.1 hopen hga hex ?_ ?_ hD hok, ?_⟩
    · intro id' hid'
      rw [hm', hls, default_root d hid, default_root d (ih.2 id' hid')]
      exact urn_apart hid (ih.2 id' hid') (fun he => hid' (he ▸ hfresh))
    · rw [hm', hls, default_root d hid]; exact urn_clear hid
    · intro i hi
      by_cases he : i = id
      · rw [he]; exact hid
      · simp only [if_neg he] at hi; exact ih.2 i hi
  | @update s H m v empty id se H' _ hopen hid hD hok ih =>
    have hm := ((procRun_keep G L ih.1).1 empty).symm.trans hopen
    have hm' : m = restarted S.hashes S.new.mgr := by cases hm; rfl
    refine ⟨.update empty id se H' ih.1 hopen hid ?_ hD hok, ?_⟩
    · rw [hm', hls, default_root d (ih.2 id hid)]; exact urn_clear (ih.2 id hid)
    · intro i hi
      by_cases he : i = id
      · rw [he]; exact ih.2 id hid
      · simp only [if_neg he] at hi; exact ih.2 i hi
  | @broken s H m v empty id se t _ hopen hid hfresh hcr ih =>
    have hm := ((procRun_keep G L ih.1).1 empty).symm.trans hopen
    have hm' : m = restarted S.hashes S.new.mgr := by cases hm; rfl
    refine ⟨.broken empty id se t ih.1 hopen ?_ ?_ hcr, ih.2⟩
    · intro id' hid'
      rw [hm', hls, default_root d hid, default_root d (ih.2 id' hid')]
      exact urn_apart hid (ih.2 id' hid') (fun he => hid' (he ▸ hfresh))
    · rw [hm', hls, default_root d hid]; exact urn_clear hid

/-- **C181.** With the configuration that comes with the program and ids as URNs: after any run of commands, each in a process of its
own, some of them failing or interrupted, the next command opens the storage root; every object is in the folder named by its
id with `_` for `:`; it opens under its id, is valid, and every version it ever had comes out with exactly the files it was
given. -/
theorem C181_default {S : Setup} {h : Bytes → Str} (d : DefaultConfig S) (hc : Codec S.w) (hx : HexHash S.w)
    (hL : LowerHash S.w) (ht : ∀ t, S.w.time (S.w.time t) = S.w.time t) (hh : S.w.hash S.args.alg = some h) {s : RootDisk}
    {H : Str → History} (hr : UserRun S UrnId (AutoSession S.w (Deposit S.w h S.args)) s H) (empty : Bool) :
    ∃ m, S.opens empty s = .ok (S.new.init.version, m) ∧
      ∀ id, H id ≠ [] → rootPath (S.layouts m) id = (urnFolder id, false) ∧ Retrieved S.w S.env S.plain S.blank (S.layouts m) s.fs id (H id) := by
  obtain ⟨h1, h2⟩ := userRun_proc d hr
  have G := default_good d
  have L := default_lasting d
  obtain ⟨m, h3, h4⟩ := C180_processes_partial G L hc hx hL ht hh h1 empty
  refine ⟨m, h3, fun id hid => ⟨?_, h4 id hid⟩⟩
  have hm := ((procRun_keep G L h1).1 empty).symm.trans h3
  have hm' : m = restarted S.hashes S.new.mgr := by cases hm; rfl
  rw [hm', show S.layouts (restarted S.hashes S.new.mgr) = S.layouts S.new.mgr from usedLayouts_restarted G.exts L.reloads L.survive]
  exact default_root d (h2 id hid)

/-- **C181**: an id that is not in use can be given to a new object, whatever was done before with other ids. -/
theorem C181_free {S : Setup} {D : Str → Session → History → History → Prop} (d : DefaultConfig S) {s : RootDisk} {H : Str → History}
    (hr : UserRun S UrnId D s H) {id : Str} (hid : UrnId id) (hempty : ∀ r, mget s.fs (under (urnFolder id) r) = none) (empty : Bool) :
    ∃ m, S.opens empty s = .ok (S.new.init.version, m) ∧ objectExists (S.layouts m) s.fs id = .ok false := by
  have G := default_good d
  have L := default_lasting d
  refine ⟨_, (procRun_keep G L (userRun_proc d hr).1).1 empty, ?_⟩
  rw [show S.layouts (restarted S.hashes S.new.mgr) = S.layouts S.new.mgr from usedLayouts_restarted G.exts L.reloads L.survive]
  unfold objectExists
  rw [default_root d hid]
  simp only [Bool.false_eq_true, if_false, Except.ok.injEq, decide_eq_false_iff_not, not_not]
  by_contra hne
  obtain ⟨⟨q, b⟩, hq⟩ := List.exists_mem_of_ne_nil _ hne
  obtain ⟨⟨p, b'⟩, hp, hq⟩ := List.mem_filterMap.1 hq
  obtain ⟨r, hr, _⟩ := Option.map_eq_some_iff.1 hq
  have hpu : p = under (urnFolder id) r := stripFolder_eq_some.1 hr
  exact mem_mkeys_mget.1 (List.mem_map.2 ⟨(p, b'), hp, rfl⟩) (hpu ▸ hempty r)

/-! ## Case -/

theorem urn_a : UrnId "a".toList := ⟨⟨'a', [], rfl, by decide⟩, by decide, by decide, by decide⟩

example : UrnId "urn:nbn:ch:bel-9039.1".toList := ⟨⟨'u', "rn:nbn:ch:bel-9039.1".toList, rfl, by decide⟩, by decide, by decide, by decide⟩
example : urnFolder "urn:nbn:ch:bel-9039.1".toList = "urn_nbn_ch_bel-9039.1".toList := by decide

theorem prDef_default : DefaultConfig (prSetup prDef) :=
  ⟨by show prHashes "sha512".toList ≠ none; exact fun h => by simp [prHashes] at h, ⟨false, by show createExtensions (makeLayout prHashes) false _ = .ok (prMgr prDef, false); decide⟩, prDef_good.text, prDef_good.docs⟩

/-- the hypotheses of C181 are met -/
example (empty : Bool) : ∃ m, (prSetup prDef).opens empty (prDisk prDef) = .ok ("1.1".toList, m) ∧
    Retrieved exKeep exEnv true (blankInv [] []) ((prSetup prDef).layouts m) (prDisk prDef).fs "a".toList
      (histOf [[("c/d".toList, [1, 2]), ("e".toList, [7]), ("f".toList, [1, 2])]]) := by
  have run : UserRun (prSetup prDef) UrnId (AutoSession exKeep (Deposit exKeep rtHash exArgs)) (prDisk prDef)
      (fun i => if i = "a".toList then histOf [replList rtFiles []] else []) :=
    UserRun.create (S := prSetup prDef) rt_open urn_a exArgs_good (pr_session _ (Or.inl rfl))
      (by show (createRun exKeep exEnv true (blankInv [] []) ((prSetup prDef).layouts (prMgr prDef)) (prNew prDef) exArgs rtFolders cliRt ⟨[], []⟩).2.success = true
          rw [prDef_layouts]; decide +kernel)
  obtain ⟨m, h1, h2⟩ := C181_default prDef_default (codecWorld_codec _) (codecWorld_hex _) exKeep_lower (fun _ => rfl) rtHash_eq run empty
  have h3 := (h2 "a".toList (by rw [if_pos rfl]; exact List.cons_ne_nil _ _)).2
  rw [if_pos rfl] at h3
  exact ⟨m, h1, h3⟩

end Gocfl
