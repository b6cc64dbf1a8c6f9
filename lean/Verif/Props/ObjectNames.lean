import Verif.Model.ContentChain
import Verif.Props.DirectClean
import Verif.Props.Paths
import Verif.Props.DefaultConfig

/-! # C195: content files and logical paths with the object configuration that comes with the program -/

namespace Gocfl

/-- the folders in front of the files of an area: none without the extension content-subpath and for the area `full`, else those
of the configuration (an empty area stands for the default one) -/
def AreaFolders (sub : Option SubPathExt) (area : Str) (pre : List Str) : Prop :=
  match sub with
  | none => pre = []
  | some e =>
    let a := if area = [] then e.area else area
    (a = "full".toList ∧ pre = []) ∨ (a ≠ "full".toList ∧ ∃ s, mget e.paths a = some s ∧ CleanRel s ∧ pre = splitOn '/' s)

theorem cleanRel_comps {p : Str} (h : CleanRel p) : splitOn '/' p ≠ [] ∧ (∀ c ∈ splitOn '/' p, ValidComp c) ∧ joinWith '/' (splitOn '/' p) = p := by
  obtain ⟨cs, h1, h2, rfl⟩ := h
  rw [splitOn_joinWith_noSep h1 (fun c hc => (h2 c hc).2.2.2)]
  exact ⟨h1, h2, rfl⟩

theorem areaFolders_valid {sub : Option SubPathExt} {area : Str} {pre : List Str} (h : AreaFolders sub area pre) : ∀ c ∈ pre, ValidComp c := by
  cases sub with
  | none => rw [show pre = [] from h]; simp
  | some e =>
    rcases h with ⟨_, rfl⟩ | ⟨_, s, _, hs, rfl⟩
    · simp
    · exact (cleanRel_comps hs).2.1

theorem areaFolders_unique {sub : Option SubPathExt} {area : Str} {pre pre' : List Str} (h : AreaFolders sub area pre)
    (h' : AreaFolders sub area pre') : pre = pre' := by
  cases sub with
  | none => exact Eq.trans (show pre = [] from h) (show pre' = [] from h').symm
  | some e =>
    rcases h with ⟨h1, rfl⟩ | ⟨h1, s, h2, _, rfl⟩ <;> rcases h' with ⟨h1', rfl⟩ | ⟨h1', s', h2', _, rfl⟩
    · rfl
    · exact absurd h1 h1'
    · exact absurd h1' h1
    · rw [h2] at h2'; cases h2'; rfl

/-- content-subpath puts the folders in front -/
theorem chain_area {sub : Option SubPathExt} {area p : Str} {pre : List Str} (h : AreaFolders sub area pre) (hp : CleanRel p) :
    manifestChain (sub.toList.map SubPathExt.toPathExt) p area false = .ok (joinWith '/' (pre ++ splitOn '/' p)) := by
  cases sub with
  | none =>
    rw [show pre = [] from h]
    show Except.ok p = _
    rw [List.nil_append, joinWith_splitOn]
  | some e =>
    have key : ∀ r, e.build p area = .ok r → r ≠ [] →
        manifestChain ((some e).toList.map SubPathExt.toPathExt) p area false = .ok r := by
      intro r hr hne
      show manifestChain [e.toPathExt] p area false = _
      simp only [manifestChain, SubPathExt.toPathExt, hr, if_neg hne]
      rfl
    rcases h with ⟨h1, rfl⟩ | ⟨h1, s, h2, hs, rfl⟩
    · rw [List.nil_append, joinWith_splitOn]
      refine key _ ?_ hp.ne_nil
      unfold SubPathExt.build
      simp only [h1, if_true]
    · rw [joinWith_append (cleanRel_comps hs).1 (cleanRel_comps hp).1, (cleanRel_comps hs).2.2, (cleanRel_comps hp).2.2]
      refine key _ ?_ (hs.join hp).ne_nil
      unfold SubPathExt.build
      simp only [if_neg h1, h2, pathJoin_two hs hp]

/-- the segments of a cleaned name -/
theorem cleaned_valid {p : Str} (hp : CleanRel p) : ∀ c ∈ (splitOn '/' p).map dcSegUTF, ValidComp c := by
  intro c hc
  obtain ⟨n, hn, rfl⟩ := List.mem_map.1 hc
  have := (cleanRel_comps hp).2.1 n hn
  exact dcSegUTF_valid this.1 this.2.2.2

theorem cleaned_ne_nil {p : Str} (hp : CleanRel p) : (splitOn '/' p).map dcSegUTF ≠ [] := by
  intro h; exact (cleanRel_comps hp).1 (List.map_eq_nil_iff.1 h)

/-- **C195**: the content path of a file with a clean name is the folders of its area, then its name with the characters that are
not allowed encoded segment by segment. -/
theorem C195_content_path {hash : Str → Str} {c : DCCfg} {sub : Option SubPathExt} {area p : Str} {pre : List Str} (hu : c.utf = true)
    (h : AreaFolders sub area pre) (hp : CleanRel p) (hf : FallbackFree c p) :
    objectContentPath hash c sub p area = .ok (joinWith '/' (pre ++ (splitOn '/' p).map dcSegUTF)) := by
  have hd : dcBuild hash c p = .ok (joinWith '/' ((splitOn '/' p).map dcSegUTF)) := by
    rw [dcBuild_free hf, cleanedSegs_utf hu, segsOf_clean hp]
  have hcl : CleanRel (joinWith '/' ((splitOn '/' p).map dcSegUTF)) := ⟨_, cleaned_ne_nil hp, cleaned_valid hp, rfl⟩
  unfold objectContentPath
  rw [manifestChain]
  simp only [cleanPathExt, hd, if_neg hcl.ne_nil]
  rw [chain_area h hcl, splitOn_joinWith_noSep (cleaned_ne_nil hp) (fun c hc => (cleaned_valid hp c hc).2.2.2)]

/-- **C195**: the logical path is the folders of its area, then its name. -/
theorem C195_state_path {sub : Option SubPathExt} {area p : Str} {pre : List Str} (h : AreaFolders sub area pre) (hp : CleanRel p) :
    objectStatePath sub p area = .ok (joinWith '/' (pre ++ splitOn '/' p)) := chain_area h hp

/-- neither folder is the other one or in it -/
def FoldersApart (a b : List Str) : Prop := ¬ a <+: b ∧ ¬ b <+: a

theorem append_apart {a b x y : List Str} (h : FoldersApart a b) : a ++ x ≠ b ++ y := by
  intro he
  rcases List.append_eq_append_iff.1 he with ⟨t, h1, _⟩ | ⟨t, h1, _⟩
  · exact h.1 ⟨t, h1.symm⟩
  · exact h.2 ⟨t, h1.symm⟩

theorem joined_inj {a b x y : List Str} (ha : ∀ c ∈ a, ValidComp c) (hb : ∀ c ∈ b, ValidComp c) (hx : ∀ c ∈ x, ValidComp c)
    (hy : ∀ c ∈ y, ValidComp c) (nx : x ≠ []) (ny : y ≠ []) :
    joinWith '/' (a ++ x) = joinWith '/' (b ++ y) ↔ a ++ x = b ++ y := by
  refine ⟨fun h => joinWith_inj (by simp [nx]) (by simp [ny]) ?_ ?_ h, fun h => by rw [h]⟩
  · intro c hc
    rcases List.mem_append.1 hc with hc | hc
    · exact (ha c hc).2.2.2
    · exact (hx c hc).2.2.2
  · intro c hc
    rcases List.mem_append.1 hc with hc | hc
    · exact (hb c hc).2.2.2
    · exact (hy c hc).2.2.2

/-- **C195**: of two files with clean names of usual length, in the same area or in areas whose folders are not in one another,
the content paths are equal exactly if area folder and name are; and the same holds of the logical paths. -/
theorem C195_same_iff {hash : Str → Str} {c : DCCfg} {sub : Option SubPathExt} {area area' p q : Str} {pre pre' : List Str} (hu : c.utf = true)
    (h : AreaFolders sub area pre) (h' : AreaFolders sub area' pre') (hp : CleanRel p) (hq : CleanRel q)
    (fp : FallbackFree c p) (fq : FallbackFree c q) (ha : pre = pre' ∨ FoldersApart pre pre') :
    (objectContentPath hash c sub p area = objectContentPath hash c sub q area' ↔ pre = pre' ∧ p = q) ∧
    (objectStatePath sub p area = objectStatePath sub q area' ↔ pre = pre' ∧ p = q) := by
  rw [C195_content_path hu h hp fp, C195_content_path hu h' hq fq, C195_state_path h hp, C195_state_path h' hq, Except.ok.injEq, Except.ok.injEq,
    joined_inj (areaFolders_valid h) (areaFolders_valid h') (cleaned_valid hp) (cleaned_valid hq) (cleaned_ne_nil hp) (cleaned_ne_nil hq),
    joined_inj (areaFolders_valid h) (areaFolders_valid h') (cleanRel_comps hp).2.1 (cleanRel_comps hq).2.1 (cleanRel_comps hp).1 (cleanRel_comps hq).1]
  have hpq : splitOn '/' p = splitOn '/' q → p = q := fun e => by rw [← joinWith_splitOn '/' p, ← joinWith_splitOn '/' q, e]
  rcases ha with rfl | ha
  · simp only [List.append_cancel_left_eq, true_and]
    exact ⟨⟨fun e => hpq (List.map_injective_iff.2 (fun _ _ => dcSegUTF_inj) e), fun e => by rw [e]⟩, ⟨hpq, fun e => by rw [e]⟩⟩
  · have hne : pre ≠ pre' := by rintro rfl; exact ha.1 (List.prefix_refl _)
    exact ⟨⟨fun e => absurd e (append_apart ha), fun e => absurd e.1 hne⟩, ⟨fun e => absurd e (append_apart ha), fun e => absurd e.1 hne⟩⟩

/-- **C195**: every content path is inside the content directory of the version. -/
theorem C195_inside {hash : Str → Str} {c : DCCfg} {sub : Option SubPathExt} {area p : Str} {pre : List Str} (hu : c.utf = true)
    (h : AreaFolders sub area pre) (hp : CleanRel p) (hf : FallbackFree c p) {i : Str} (hi : objectContentPath hash c sub p area = .ok i)
    {inv : Inv} (hh : ValidComp inv.head) (hc : ValidComp inv.contentDir) :
    CleanRel i ∧ buildManifestName inv i = inv.head ++ '/' :: (inv.contentDir ++ '/' :: i) := by
  rw [C195_content_path hu h hp hf] at hi
  cases hi
  have : CleanRel (joinWith '/' (pre ++ (splitOn '/' p).map dcSegUTF)) := by
    refine ⟨_, by simp [cleaned_ne_nil hp], ?_, rfl⟩
    intro x hx
    rcases List.mem_append.1 hx with hx | hx
    · exact areaFolders_valid h x hx
    · exact cleaned_valid hp x hx
  exact ⟨this, C13_content_path_clean_name hh hc this⟩

/-! ## Sessions -/

/-- The object uses direct-clean and, if given, content-subpath. -/
structure ObjectConfig (w : World) (hash : Str → Str) (c : DCCfg) (sub : Option SubPathExt) : Prop where
  content : w.manifestPath = objectContentPath hash c sub
  state : w.statePath = objectStatePath sub

/-- What is asked of the names of the files: clean relative paths as found when walking a folder, of usual length, in areas that
are configured and whose folders are not in one another, no two in the same place. -/
structure FileNames (c : DCCfg) (sub : Option SubPathExt) (files : List InFile) : Prop where
  clean : ∀ f ∈ files, CleanRel f.path
  short : ∀ f ∈ files, FallbackFree c f.path
  area : ∀ f ∈ files, ∃ pre, AreaFolders sub f.area pre
  apart : ∀ f ∈ files, ∀ g ∈ files, ∀ pre pre', AreaFolders sub f.area pre → AreaFolders sub g.area pre' → pre = pre' ∨ FoldersApart pre pre'
  distinct : files.Pairwise (fun f g => ∀ pre, AreaFolders sub f.area pre → AreaFolders sub g.area pre → f.path ≠ g.path)

theorem walk_valid {cs : List Str} (h : ∀ c ∈ cs, ValidComp c) (n : Nat) : walk n cs = some (n + cs.length) := by
  induction cs generalizing n with
  | nil => rfl
  | cons c cs ih =>
    obtain ⟨h1, h2, h3, _⟩ := h c (by simp)
    rw [walk, if_neg (by rintro (e | e); exacts [h1 e, h2 e]), if_neg h3, ih (fun x hx => h x (List.mem_cons_of_mem _ hx))]
    simp only [List.length_cons]; congr 1; omega

theorem cleanRel_inside {p : Str} (h : CleanRel p) : InsideName p := by
  obtain ⟨h1, h2, _⟩ := cleanRel_comps h
  refine ⟨(splitOn '/' p).length - 1, ?_⟩
  rw [walk_valid h2]
  have := List.length_pos_iff.2 h1
  congr 1; omega

section
variable {w : World} {hash : Str → Str} {c : DCCfg} {sub : Option SubPathExt} {files : List InFile} {dup : Bool} {s : Session}

theorem content_clean (O : ObjectConfig w hash c sub) (hu : c.utf = true) (G : FileNames c sub files) {f : InFile} (hf : f ∈ files) {i : Str}
    (hi : w.manifestPath f.path f.area = .ok i) : CleanRel i := by
  obtain ⟨pre, hpre⟩ := G.area f hf
  rw [O.content] at hi
  exact (C195_inside (inv := { newInv [] [] [] [] [] with head := "v1".toList }) hu hpre (G.clean f hf) (G.short f hf) hi
    ⟨by decide, by decide, by decide, by decide⟩ ⟨by decide, by decide, by decide, by decide⟩).1

theorem uses_addAll {x : Str × Str} (hx : x ∈ callsUses (addAll dup files)) : ∃ f ∈ files, x = (f.path, f.area) := by
  obtain ⟨k, hk, hx⟩ := List.mem_flatMap.1 hx
  obtain ⟨f, hf, rfl⟩ := List.mem_map.1 hk
  exact ⟨f, hf, List.mem_singleton.1 hx⟩

/-- **C195**: the session stays in the content directory, -/
theorem C195_safe_names (O : ObjectConfig w hash c sub) (hu : c.utf = true) (G : FileNames c sub files) (ha : AddsFiles s dup files) :
    SafeNames w s := by
  intro x hx i hi
  have hx : x ∈ callsUses (addAll dup files) := by
    have h1 : callsUses s.before = [] := ha.before.uses
    have h2 : callsUses s.after = [] := ha.after.uses
    have h3 : s.uses = callsUses (addAll dup files) := by
      unfold Session.uses
      rw [h1, h2, ha.rounds, ha.body.uses]; simp
    rwa [h3] at hx
  obtain ⟨f, hf, rfl⟩ := uses_addAll hx
  exact cleanRel_inside (content_clean O hu G hf hi)

theorem same_place (O : ObjectConfig w hash c sub) (hu : c.utf = true) (G : FileNames c sub files) {f g : InFile} (hf : f ∈ files) (hg : g ∈ files)
    {pre pre' : List Str} (h : AreaFolders sub f.area pre) (h' : AreaFolders sub g.area pre') :
    (w.manifestPath f.path f.area = w.manifestPath g.path g.area ↔ pre = pre' ∧ f.path = g.path) ∧
    (w.statePath f.path f.area = w.statePath g.path g.area ↔ pre = pre' ∧ f.path = g.path) := by
  rw [O.content, O.state]
  exact C195_same_iff hu h h' (G.clean f hf) (G.clean g hg) (G.short f hf) (G.short g hg) (G.apart f hf g hg _ _ h h')

/-- every content gets a file of its own, -/
theorem C195_targets (O : ObjectConfig w hash c sub) (hu : c.utf = true) (G : FileNames c sub files) (ha : AddsFiles s dup files) {inv : Inv}
    (hh : ValidComp inv.head) (hc : ValidComp inv.contentDir) : (targets w inv s.body).Nodup := by
  unfold targets
  rw [ha.body.uses]
  have hmap : callsUses (addAll dup files) = files.map (fun f => (f.path, f.area)) := by
    clear ha G
    induction files with
    | nil => rfl
    | cons f fs ih => exact congrArg (fun l => (f.path, f.area) :: l) ih
  rw [hmap, List.filterMap_map]
  have key : ∀ f ∈ files, ∀ g ∈ files, (∀ pre, AreaFolders sub f.area pre → AreaFolders sub g.area pre → f.path ≠ g.path) →
      ∀ p, targetOf w inv (f.path, f.area) = some p → targetOf w inv (g.path, g.area) ≠ some p := by
    intro f hf g hg hd p h1 h2
    unfold targetOf at h1 h2
    simp only at h1 h2
    cases hi : w.manifestPath f.path f.area with
    | error e => rw [hi] at h1; cases h1
    | ok i =>
      cases hj : w.manifestPath g.path g.area with
      | error e => rw [hj] at h2; cases h2
      | ok j =>
        rw [hi] at h1; rw [hj] at h2
        simp only [Option.some.injEq] at h1 h2
        have ci := content_clean O hu G hf hi
        have cj := content_clean O hu G hg hj
        rw [C13_content_path_clean_name hh hc ci] at h1
        rw [C13_content_path_clean_name hh hc cj, ← h1] at h2
        have hij : j = i := by simpa using h2
        obtain ⟨pre, hpre⟩ := G.area f hf
        obtain ⟨pre', hpre'⟩ := G.area g hg
        obtain ⟨rfl, hp⟩ := (same_place O hu G hf hg hpre hpre').1.1 (by rw [hi, hj, hij])
        exact hd _ hpre hpre' hp
  refine List.pairwise_filterMap.2 ?_
  have hpw := G.distinct
  refine List.Pairwise.imp_of_mem (fun {f g} hf hg hd p hp p' hp' => ?_) hpw
  rintro rfl
  exact key f hf g hg hd p hp hp'

/-- and every file a logical path of its own, which is safe. -/
theorem C195_paths (O : ObjectConfig w hash c sub) (hu : c.utf = true) (G : FileNames c sub files) :
    DistinctPaths w files ∧ ∀ f ∈ files, ∃ q, StatePathOf w f q ∧ SafePath q := by
  refine ⟨List.Pairwise.imp_of_mem (fun {f g} hf hg hd q h1 h2 => ?_) G.distinct, fun f hf => ?_⟩
  · obtain ⟨pre, hpre⟩ := G.area f hf
    obtain ⟨pre', hpre'⟩ := G.area g hg
    obtain ⟨rfl, hp⟩ := (same_place O hu G hf hg hpre hpre').2.1 (Eq.trans h1 (Eq.symm h2))
    exact hd _ hpre hpre' hp
  · obtain ⟨pre, hpre⟩ := G.area f hf
    have hv : ∀ x ∈ pre ++ splitOn '/' f.path, ValidComp x := by
      intro x hx
      rcases List.mem_append.1 hx with hx | hx
      · exact areaFolders_valid hpre x hx
      · exact (cleanRel_comps (G.clean f hf)).2.1 x hx
    refine ⟨_, by unfold StatePathOf; rw [O.state]; exact C195_state_path hpre (G.clean f hf), ?_⟩
    intro seg hseg
    rw [splitOn_joinWith_noSep (by simp [(cleanRel_comps (G.clean f hf)).1]) (fun x hx => (hv x hx).2.2.2)] at hseg
    exact ⟨(hv seg hseg).1, (hv seg hseg).2.1, (hv seg hseg).2.2.1⟩

/-- What is asked of the files of a command for an object with the history `H`, nothing of it about content paths. -/
structure Handed (w : World) (h : Bytes → Str) (c : DCCfg) (sub : Option SubPathExt) (_id : Str) (dup : Bool) (s : Session)
    (files : List InFile) (H : History) : Prop where
  /-- the session adds the files and nothing else -/
  adds : AddsFiles s dup files
  names : FileNames c sub files
  /-- one of them is new or changed -/
  change : ∃ f ∈ files, ∃ q, StatePathOf w f q ∧ ¬ H.last q f.data
  /-- no path is at the same time a folder -/
  noConflict : ∀ x y b c, After w s files H.last x b → After w s files H.last y c → ¬ UnderDir x y
  /-- no two different contents with one digest -/
  noCollision : ∀ b b', InHistory H files b → InHistory H files b' → h b = h b' → b = b'
  /-- a path that is not in the last version never had this content; one that is there is unchanged, or gets a content
  that no other file has (the latter only if duplicates are looked for) -/
  placed : ∀ f ∈ files, ∀ q, StatePathOf w f q →
    ((∀ b, ¬ H.last q b) ∧ ∀ E ∈ H, ¬ E q f.data) ∨
    ((∃ b, H.last q b) ∧ (dup = true → H.last q f.data ∨
      ((∀ E ∈ H, ∀ q', ¬ E q' f.data) ∧ ∀ g ∈ files, g.data = f.data → g = f)))

theorem handed_deposit (O : ObjectConfig w hash c sub) (hu : c.utf = true) {h : Bytes → Str} {a : CreateArgs} {id : Str} {H : History}
    (hcd : a.contentDir ≠ ".".toList ∧ a.contentDir ≠ "..".toList ∧ '/' ∉ a.contentDir)
    (G : Handed w h c sub id dup s files H) : Deposit w h a id dup s files H where
  adds := G.adds
  names := C195_safe_names O hu G.names G.adds
  targets := by
    refine C195_targets O hu G.names G.adds ?_ ?_
    · exact verName_valid 0 (H.length + 1)
    · show ValidComp (if a.contentDir = [] then "content".toList else a.contentDir)
      split
      · exact ⟨by decide, by decide, by decide, by decide⟩
      · rename_i hne; exact ⟨hne, hcd⟩
  paths := (C195_paths O hu G.names).1
  safe := by
    intro f hf q hq
    obtain ⟨q', h1, h2⟩ := (C195_paths O hu G.names).2 f hf
    have : Except.ok q = Except.ok (ε := GoErr) q' := Eq.trans (Eq.symm hq) h1
    cases this
    exact h2
  change := G.change
  noConflict := G.noConflict
  noCollision := G.noCollision
  placed := G.placed

end

theorem autoRounds_mono {w : World} {D D' : Bool → Session → List InFile → History → Prop} (h : ∀ d s f H, D d s f H → D' d s f H)
    {rs : List Round} {H H' : History} (hr : AutoRounds w D rs H H') : AutoRounds w D' rs H H' := by
  induction hr with
  | nil H => exact .nil H
  | cons dup files d _ ih => exact .cons dup files (h _ _ _ _ d) ih

theorem autoSession_mono {w : World} {D D' : Str → Bool → Session → List InFile → History → Prop} (h : ∀ id d s f H, D id d s f H → D' id d s f H)
    {id : Str} {s : Session} {H H' : History} (hr : AutoSession w D id s H H') : AutoSession w D' id s H H' := by
  obtain ⟨dup, files, h1, h2⟩ := hr
  exact ⟨dup, files, h _ _ _ _ _ h1, autoRounds_mono (h id) h2⟩

theorem userRun_mono {S : Setup} {I : Str → Prop} {D D' : Str → Session → History → History → Prop} (h : ∀ id s H H', D id s H H' → D' id s H H')
    {s : RootDisk} {H : Str → History} (hr : UserRun S I D s H) : UserRun S I D' s H := by
  induction hr with
  | init ok => exact .init ok
  | create fo id args good ok => exact .create fo id args (h _ _ _ _ good) ok
  | add empty id se H' _ o hid args new fresh good ok ih => exact .add empty id se H' ih o hid args new fresh (h _ _ _ _ good) ok
  | update empty id se H' _ o there good ok ih => exact .update empty id se H' ih o there (h _ _ _ _ good) ok
  | broken empty id se t _ o hid fresh crash ih => exact .broken empty id se t ih o hid fresh crash

/-- **C195.** With the configurations of the storage root and of objects that come with the program, ids as URNs and files named as
found when walking a folder (no segment longer than 127 bytes after encoding, at most 32000 in all): after any run of commands, each in
a process of its own, some of them failing or interrupted, the storage root opens and every version of every object comes out with
exactly the files it was given. -/
theorem C195_default_partial {S : Setup} {h : Bytes → Str} {hash : Str → Str} (d : DefaultConfig S) (O : ObjectConfig S.w hash shippedClean none)
    (hcd : S.args.contentDir ≠ ".".toList ∧ S.args.contentDir ≠ "..".toList ∧ '/' ∉ S.args.contentDir)
    (hc : Codec S.w) (hx : HexHash S.w)
    (hL : LowerHash S.w) (ht : ∀ t, S.w.time (S.w.time t) = S.w.time t) (hh : S.w.hash S.args.alg = some h) {s : RootDisk}
    {H : Str → History} (hr : UserRun S UrnId (AutoSession S.w (Handed S.w h shippedClean none)) s H) (empty : Bool) :
    ∃ m, S.opens empty s = .ok (S.new.init.version, m) ∧
      ∀ id, H id ≠ [] → rootPath (S.layouts m) id = (urnFolder id, false) ∧ Retrieved S.w S.env S.plain S.blank (S.layouts m) s.fs id (H id) :=
  C181_default d hc hx hL ht hh (userRun_mono (fun _ _ _ _ => autoSession_mono (fun _ _ _ _ _ G => handed_deposit O rfl hcd G)) hr) empty

/-! ## Case -/

/-- the configuration of objects that comes with the program -/
noncomputable def onWorld : World :=
  { exKeep with
    manifestPath := objectContentPath (fun s => 'd' :: 'e' :: s) shippedClean none
    statePath := objectStatePath none }

theorem onWorld_config : ObjectConfig onWorld (fun s => 'd' :: 'e' :: s) shippedClean none := ⟨rfl, rfl⟩

noncomputable def onSetup : Setup := { prSetup prDef with w := onWorld }

theorem onSetup_default : DefaultConfig onSetup := ⟨prDef_default.hash, prDef_default.manager, prDef_default.text, prDef_default.docs⟩

/-- three files, whose names differ in characters that are not allowed -/
def onFiles : List InFile :=
  [⟨"content".toList, "c d/e?".toList, [1, 2]⟩, ⟨"content".toList, "c d/e*".toList, [7]⟩, ⟨"content".toList, "~".toList, [8, 8, 8]⟩]

def onCmd : CmdLine := ⟨"a".toList, "content".toList, "src".toList, [], true, exSession []⟩

def onFolders : Surroundings :=
  ⟨fun _ => .ok [("c d/e?".toList, [1, 2]), ("c d/e*".toList, [7]), ("~".toList, [8, 8, 8])], id, true, []⟩

theorem on_open : openFolders onFolders onCmd = .ok onFiles := by decide

example : objectContentPath (fun _ => []) shippedClean none "c d/e?".toList [] = .ok "c=u0020d/e=u003F".toList := by decide
example : objectContentPath (fun _ => []) shippedClean (some shippedSub) "c d/e?".toList [] = .ok "data/c=u0020d/e=u003F".toList := by decide

theorem on_names : FileNames shippedClean none onFiles where
  clean := by
    have : ∀ f ∈ onFiles, (∀ x ∈ splitOn '/' f.path, x ≠ [] ∧ x ≠ ".".toList ∧ x ≠ "..".toList ∧ '/' ∉ x) := by decide
    exact fun f hf => ⟨splitOn '/' f.path, splitOn_ne_nil _ _, this f hf, (joinWith_splitOn _ _).symm⟩
  short := by decide
  area := fun f _ => ⟨[], rfl⟩
  apart := fun f _ g _ pre pre' h h' => Or.inl (Eq.trans (show pre = [] from h) (show pre' = [] from h').symm)
  distinct := by
    have : onFiles.Pairwise (fun f g => f.path ≠ g.path) := by decide
    exact this.imp (fun h _ _ _ => h)

theorem on_handed : Handed onWorld rtHash shippedClean none "a".toList true ({ exSession [] with body := addAll true onFiles } : Session) onFiles [] where
  adds := (AddsJust.mk rfl rfl rfl rfl).addsFiles
  names := on_names
  change := ⟨_, List.mem_cons_self, _, rfl, fun h => h⟩
  noConflict := by
    have key : ∀ x b, After onWorld ({ exSession [] with body := addAll true onFiles } : Session) onFiles (History.last []) x b → x ∈ onFiles.map InFile.path := by
      intro x b h
      rcases h with ⟨f, hf, h1, _⟩ | ⟨_, _, h⟩
      · cases h1; exact List.mem_map_of_mem hf
      · exact h.elim
    have : ∀ x ∈ onFiles.map InFile.path, ∀ y ∈ onFiles.map InFile.path, ¬ (x ++ ['/']) <+: y := by decide
    rintro x y b c hx hy ⟨t, ht⟩
    exact this x (key x b hx) y (key y c hy) ⟨t, by rw [ht]; simp⟩
  noCollision := by
    have key : ∀ b, InHistory [] onFiles b → b ∈ onFiles.map InFile.data := by
      rintro b (⟨E, hE, _⟩ | ⟨f, hf, rfl⟩)
      · cases hE
      · exact List.mem_map_of_mem hf
    have : ∀ x ∈ onFiles.map InFile.data, ∀ y ∈ onFiles.map InFile.data, rtHash x = rtHash y → x = y := by decide
    exact fun b b' h h' => this b (key b h) b' (key b' h')
  placed := fun f _ q _ => Or.inl ⟨fun b h => h, fun E hE => by cases hE⟩

/-- the hypotheses of C195 are met -/
example (empty : Bool) : ∃ s m, onSetup.opens empty s = .ok ("1.1".toList, m) ∧
    Retrieved onWorld exEnv true (blankInv [] []) (onSetup.layouts m) s.fs "a".toList
      [After onWorld ({ exSession [] with body := addAll true onFiles } : Session) onFiles (History.last [])] := by
  have run := UserRun.create (S := onSetup) (I := UrnId) (D := AutoSession onWorld (Handed onWorld rtHash shippedClean none)) on_open urn_a exArgs_good
    (H' := [After onWorld ({ exSession [] with body := addAll true onFiles } : Session) onFiles (History.last [])])
    ⟨true, onFiles, on_handed, .nil _⟩
    (by show (createRun onWorld exEnv true (blankInv [] []) ((prSetup prDef).layouts (prMgr prDef)) (prNew prDef) exArgs onFolders onCmd ⟨[], []⟩).2.success = true
        rw [prDef_layouts]; decide +kernel)
  obtain ⟨m, h1, h2⟩ := C195_default_partial (h := rtHash) onSetup_default onWorld_config ⟨by decide, by decide, by decide⟩
    ⟨(codecWorld_codec _).roundTrip, (codecWorld_codec _).empty⟩ (codecWorld_hex (fun t => t)) exKeep_lower (fun _ => rfl) rtHash_eq run empty
  have h3 := (h2 "a".toList (by rw [if_pos (show "a".toList = onCmd.id from rfl)]; exact List.cons_ne_nil _ _)).2
  rw [if_pos (show "a".toList = onCmd.id from rfl)] at h3
  exact ⟨_, m, h1, h3⟩

/-! ## Where it fails -/

/-- **C195, full statement** (false): whatever the configuration of direct-clean, a session that adds files with different clean
names leaves an object in which every digest in the manifest is that of the file it names. -/
def C195_full : Prop :=
  ∀ (w : World) (hash : Str → Str) (c : DCCfg) (inv : Inv) (n : Nat) (s : Session) (fs : FS) (h : Bytes → Str) (dup : Bool) (files : List InFile),
    ObjectConfig w hash (newDC c) none → (∀ x, LowHexStr (hash x)) → WF inv n → ValidComp inv.contentDir → w.hash inv.digestAlg = some h →
    ContentOk h inv fs → (∀ d m p, (d, m) ∈ inv.manifest → p ∈ m → VersionFile inv n p) → AddsOnly s dup files →
    (∀ f ∈ files, CleanRel f.path) → (files.map InFile.path).Nodup → (session w inv s).err = none →
    ContentOk h (session w inv s).obj.inv (applyOps fs (session w inv s).obj.trace)

/-- two files are added to the object of the case of C25, which has two versions -/
def onTwo (n1 n2 : Str) : List InFile := [⟨[], n1, [3]⟩, ⟨[], n2, [4]⟩]

def onLost (hash : Str → Str) (c : DCCfg) : World :=
  { exWorld4 with manifestPath := objectContentPath hash c none, statePath := objectStatePath none }

theorem onLost_ok {hash : Str → Str} {c : DCCfg} {n1 n2 : Str} (hx : ∀ x, LowHexStr (hash x)) (h1 : CleanRel n1) (h2 : CleanRel n2)
    (hne : n1 ≠ n2) (he : (session (onLost hash (newDC c)) exInv (rtSession (onTwo n1 n2))).err = none) (hf : C195_full) :
    ContentOk exHash4 (session (onLost hash (newDC c)) exInv (rtSession (onTwo n1 n2))).obj.inv
      (applyOps exDisk4 (session (onLost hash (newDC c)) exInv (rtSession (onTwo n1 n2))).obj.trace) := by
  refine hf _ hash c exInv 2 _ exDisk4 exHash4 true (onTwo n1 n2) ⟨rfl, rfl⟩ hx exInv_wf2 exInv_contentDir exWorld4_hash exDisk4_ok exInv_versionFiles
    (rtSession_adds _) ?_ (by simp [onTwo, hne]) he
  intro f hf
  simp only [onTwo, List.mem_cons, List.not_mem_nil, or_false] at hf
  rcases hf with rfl | rfl
  · exact h1
  · exact h2

theorem cleanRel_of_comps {p : Str} (h : ∀ x ∈ splitOn '/' p, x ≠ [] ∧ x ≠ ".".toList ∧ x ≠ "..".toList ∧ '/' ∉ x) : CleanRel p :=
  ⟨splitOn '/' p, splitOn_ne_nil _ _, h, (joinWith_splitOn _ _).symm⟩

/-- the configuration without the encoding, which is what direct-clean does unless told otherwise -/
def onPlain : DCCfg := { maxPathname := 32000, maxSegment := 127, repl := "_".toList, white := " ".toList, utf := false, folder := [], tuples := 0, tupleSize := 0 }

/-- Without the encoding `c?` and `c*` are stored in one file: the first is lost, no error is reported. -/
theorem C195_full_fails : ¬ C195_full := by
  intro hf
  have h := onLost_ok (hash := fun _ => []) (c := onPlain) (n1 := "c?".toList) (n2 := "c*".toList) (by intro x c hc; cases hc)
    (cleanRel_of_comps (by decide)) (cleanRel_of_comps (by decide)) (by decide) (by decide) hf
  have hm : mget (session (onLost (fun _ => []) (newDC onPlain)) exInv (rtSession (onTwo "c?".toList "c*".toList))).obj.inv.manifest "d3".toList =
    some ["v3/content/c_".toList] := by decide
  obtain ⟨b, h1, h2⟩ := h "d3".toList ["v3/content/c_".toList] "v3/content/c_".toList (mem_of_mget hm) (by simp)
  have h3 : mget (applyOps exDisk4 (session (onLost (fun _ => []) (newDC onPlain)) exInv (rtSession (onTwo "c?".toList "c*".toList))).obj.trace)
    "v3/content/c_".toList = some [4] := by decide
  rw [h3] at h1
  cases h1
  exact absurd h2 (by decide)

/-- a digest of the length of SHA-512 -/
def onDigest : Str := List.replicate 128 '0'

/-- a name longer than 127 bytes, and the path that is made of its digest -/
def onLong : Str := List.replicate 128 'a'
def onFallback : Str := "fallback/".toList ++ (List.replicate 127 '0' ++ "/0".toList)

/-- With the configuration that comes with the program: a file with a long name is stored below `fallback` under its digest; a
file of that name in the source folder takes its place. -/
theorem C195_full_fails_shipped : ¬ C195_full := by
  intro hf
  have e : shippedClean = newDC { maxPathname := 32000, maxSegment := 127, repl := "_".toList, white := " ".toList, utf := true, folder := [], tuples := 0, tupleSize := 0 } := rfl
  have h := onLost_ok (hash := fun _ => onDigest)
    (c := { maxPathname := 32000, maxSegment := 127, repl := "_".toList, white := " ".toList, utf := true, folder := [], tuples := 0, tupleSize := 0 })
    (n1 := onLong) (n2 := onFallback) (by intro x c hc; cases List.eq_of_mem_replicate hc; unfold LowHex; decide)
    (cleanRel_of_comps (by decide +kernel)) (cleanRel_of_comps (by decide +kernel)) (by decide +kernel) (by decide +kernel) hf
  rw [← e] at h
  have hm : mget (session (onLost (fun _ => onDigest) shippedClean) exInv (rtSession (onTwo onLong onFallback))).obj.inv.manifest "d3".toList =
    some ["v3/content/".toList ++ onFallback] := by decide +kernel
  have hm := mem_of_mget hm
  generalize hp : "v3/content/".toList ++ onFallback = p at hm
  obtain ⟨b, h1, h2⟩ := h "d3".toList [p] p hm List.mem_cons_self
  rw [← hp] at h1
  have h3 : mget (applyOps exDisk4 (session (onLost (fun _ => onDigest) shippedClean) exInv (rtSession (onTwo onLong onFallback))).obj.trace)
    ("v3/content/".toList ++ onFallback) = some [4] := by decide +kernel
  have h3' := h3.symm.trans h1
  cases h3'
  exact absurd h2 (by decide)

end Gocfl
