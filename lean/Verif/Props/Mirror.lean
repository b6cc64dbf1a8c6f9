import Verif.Props.Archive

/-! # Mirroring updates (C163)

`update --echo` makes the latest version what the source folder is — if at least one file of the folder is new or changed. -/

namespace Gocfl

/-- a session that mirrors the whole object -/
structure Mirrors (w : World) (s : Session) : Prop where
  echo : s.echo = true
  base : w.statePath ".".toList [] = .ok ".".toList

/-- **C163, in full** (false): the latest version is what the source folder is. -/
def C163_full : Prop := ∀ (w : World) (env : Env) (plain : Bool) (blank : Inv) (ls : List (Str → Res Str)) (a : CreateArgs) (fs : FS)
    (id : Str) (s : Session) (dup : Bool) (files : List InFile) (h : Bytes → Str) (inv : Inv) (f0 : List Fnd) (N : Nat) (xp : ExtractPath)
    (wm : Bool), Codec w → HexHash w → LowerHash w → (∀ t, w.time (w.time t) = w.time t) →
    loadByID w env plain blank ls fs id = .ok (inv, f0) → inv.id = id → Intact w (subFS fs (rootPath ls id).1) 0 N inv → Clear inv →
    w.hash inv.digestAlg = some h → AddsFiles s dup files → Mirrors w s → (updateCmd w env plain blank ls a fs id s).2 = none → SafeNames w s →
    (targets w { inv with head := verName inv.paddingLength ((N + 1 : Nat) : Int) } s.body).Nodup → DistinctPaths w files →
    (∀ f ∈ files, ∀ q, StatePathOf w f q → SafePath q) →
    (∀ f ∈ files, ∀ q, StatePathOf w f q → Placed h dup inv files f q) →
    (∀ f ∈ files, ∀ g ∈ files, ∀ x y, StatePathOf w f x → StatePathOf w g y → ¬ UnderDir x y) →
    (∀ b b', KnownContent (subFS fs (rootPath ls id).1) inv files b → KnownContent (subFS fs (rootPath ls id).1) inv files b' →
      h b = h b' → b = b') →
    NamesApart xp (fun q => ∃ f ∈ files, StatePathOf w f q) →
    ComesOut w env plain blank ls (applyOps fs (updateCmd w env plain blank ls a fs id s).1) id xp wm (Source w files)

section
variable {w : World} {env : Env} {plain : Bool} {blank : Inv} {ls : List (Str → Res Str)} {a : CreateArgs} {fs : FS} {id : Str}
  {s : Session} {dup : Bool} {files : List InFile} {h : Bytes → Str} {inv : Inv} {f0 : List Fnd} {p N : Nat}

theorem Mirrors.pathThen (hm : Mirrors w s) {q : Str} : PathThen w s inv files q ↔ ∃ f ∈ files, StatePathOf w f q := by
  constructor
  · rintro (⟨h, _⟩ | h)
    · exact absurd rfl (h hm.echo _ hm.base).1
    · exact h
  · exact Or.inr

/-- **C163.** `update --echo` with a file that is new or changed: the latest version comes out as exactly the source folder,
whatever was in the version before; the older versions stay. -/
theorem C163_mirror_partial (hc : Codec w) (hx : HexHash w) (hL : LowerHash w)
    (ht : ∀ t, w.time (w.time t) = w.time t) (hl : loadByID w env plain blank ls fs id = .ok (inv, f0)) (hid : inv.id = id)
    (I : Intact w (subFS fs (rootPath ls id).1) p N inv) (C : Clear inv) (hh : w.hash inv.digestAlg = some h)
    (ha : AddsFiles s dup files) (hm : Mirrors w s) (he : (updateCmd w env plain blank ls a fs id s).2 = none)
    (names : SafeNames w s)
    (htar : (targets w { inv with head := verName inv.paddingLength ((N + 1 : Nat) : Int) } s.body).Nodup)
    (paths : DistinctPaths w files) (safe : ∀ f ∈ files, ∀ q, StatePathOf w f q → SafePath q)
    (placed : ∀ f ∈ files, ∀ q, StatePathOf w f q → Placed h dup inv files f q)
    (change : ∃ f ∈ files, ∃ q, StatePathOf w f q ∧ ¬ HasFile inv inv.head q (h f.data))
    (noConflict : ∀ f ∈ files, ∀ g ∈ files, ∀ x y, StatePathOf w f x → StatePathOf w g y → ¬ UnderDir x y)
    (noCollision : ∀ b b', KnownContent (subFS fs (rootPath ls id).1) inv files b →
      KnownContent (subFS fs (rootPath ls id).1) inv files b' → h b = h b' → b = b')
    (hwid : 0 < p → (fmtNat (N + 1)).length ≤ p)
    {xp : ExtractPath} (hxp : NamesApart xp (fun q => ∃ f ∈ files, StatePathOf w f q)) (wm : Bool) :
    ComesOut w env plain blank ls (applyOps fs (updateCmd w env plain blank ls a fs id s).1) id xp wm (Source w files) ∧
    ∃ r f, ValidObject w (subFS (applyOps fs (updateCmd w env plain blank ls a fs id s).1) (rootPath ls id).1) p (N + 1) r ∧
      loadByID w env plain blank ls (applyOps fs (updateCmd w env plain blank ls a fs id s).1) id = .ok (loadedInv p r, f) ∧
      (∀ v ∈ mkeys inv.versions, ∀ q b, VersionContent (subFS (applyOps fs (updateCmd w env plain blank ls a fs id s).1) (rootPath ls id).1)
        (loadedInv p r) v q b ↔ VersionContent (subFS fs (rootPath ls id).1) inv v q b) := by
  have hg : GoodUpdate w h dup (subFS fs (rootPath ls id).1) inv N s files := by
    refine ⟨names, htar, paths, safe, placed, change, fun x y hx' hy' => ?_, noCollision⟩
    obtain ⟨f, hf, h1⟩ := hm.pathThen.1 hx'
    obtain ⟨g, hg, h2⟩ := hm.pathThen.1 hy'
    exact noConflict f hf g hg x y h1 h2
  obtain ⟨⟨i, f, h1, h2, h3, h4⟩, r, f', U, hload⟩ := C161_update_partial (a := a) hc hx hL ht hl hid I C hh ha he hg hwid (xp := xp)
    ⟨fun q hq => hxp.total q (hm.pathThen.1 hq), fun q q' x h1 h2 => hxp.injective q q' x (hm.pathThen.1 h1) (hm.pathThen.1 h2)⟩ wm
  refine ⟨⟨i, f, h1, h2, h3, fun x b hxb => ?_⟩, r, f', U.valid, hload, U.old⟩
  rw [h4 x b hxb]
  simp only [after_mirror hm.echo hm.base]
  rfl

/-- ... and with no such file nothing happens, whatever is missing from the folder. -/
theorem C163_only_removed (hx : HexHash w) (hl : loadByID w env plain blank ls fs id = .ok (inv, f0))
    (I : Intact w (subFS fs (rootPath ls id).1) p N inv) (ho : OneDigestPerPath inv) (hmod : inv.modified = false)
    (hh : w.hash inv.digestAlg = some h) (ha : AddsJust s true files)
    (same : ∀ f ∈ files, ∃ q, StatePathOf w f q ∧ HasFile inv inv.head q (h f.data)) :
    applyOps fs (updateCmd w env plain blank ls a fs id s).1 = fs := by
  have hroot : (rootPath ls id).2 = false := by
    unfold loadByID at hl
    split at hl
    · cases hl
    · rename_i hr; exact Bool.eq_false_iff.2 hr
  have hex : objectExists ls fs id = .ok true := by
    cases hx : objectExists ls fs id with
    | error e => unfold objectExists at hx; rw [hroot] at hx; cases hx
    | ok b =>
      have : b = true := by
        rw [C94_exists_exact _ _ _ _ hx]
        obtain ⟨num, _, hd, _⟩ := I.decl
        exact ⟨_, _, by rw [← mget_subFS]; exact hd⟩
      rw [this]
  have hupd : updateCmd w env plain blank ls a fs id s = inFolder (rootPath ls id).1 (session w inv s) := by
    unfold updateCmd addObjectByPath
    simp only [hex, hl]
  have htr : (session w inv s).obj.trace = [] := by
    refine C26_unchanged_writes_nothing_partial I.ok.wf ho hmod (by rw [ha.before]; simp) (fun c hc => Or.inl ?_)
    rw [ha.body] at hc
    obtain ⟨f, hf, rfl⟩ := List.mem_map.1 hc
    obtain ⟨q, hq, hs⟩ := same f hf
    exact ⟨f.path, f.area, f.data, q, h, rfl, hq, hh, (hx _ _ f.data hh).1, hs⟩
  rw [hupd]
  unfold inFolder
  rw [htr]
  rfl

end

/-! ## Concrete cases -/

/-- the update command of the cases, mirroring -/
noncomputable def arEcho (fs : FS) (files : List InFile) : List FsOp × Option GoErr :=
  updateCmd exKeep exEnv true (blankInv [] []) flatLayout exArgs fs "a".toList (arSession true files)

theorem ar_echo_eq (files : List InFile) :
    arEcho arFs1 files = inFolder (rootPath flatLayout "a".toList).1 (session exKeep arInv1 (arSession true files)) := by
  obtain ⟨f, hl⟩ := ar_load1
  have hex : objectExists flatLayout arFs1 "a".toList = .ok true := by
    unfold objectExists
    rw [ar_sub1]
    rfl
  unfold arEcho updateCmd addObjectByPath
  simp only [hex, hl]

theorem ar_mirrors (files : List InFile) : Mirrors exKeep (arSession true files) := ⟨rfl, rfl⟩

/-- `e` changed, `f` as it was, `c/d` gone -/
def arLess : List InFile := [⟨"content".toList, "e".toList, [9, 9, 9, 9]⟩, ⟨"metadata".toList, "f".toList, [1, 2]⟩]

theorem ar_fitLess : FitList true "a".toList arLess [replList rtFiles []] :=
  ⟨by decide, by decide, by decide, by decide, by decide, by decide, by decide⟩

theorem ar_placedLess : PlacedList arLess [replList rtFiles []] := by unfold PlacedList; decide

/-- the hypotheses of C163 are met: of three files one is changed and one is gone -/
theorem ar_mirror : ComesOut exKeep exEnv true (blankInv [] []) flatLayout (applyOps arFs1 (arEcho arFs1 arLess).1) "a".toList rtXp true
    (Source exKeep arLess) := by
  have hh := (archiveRun_holds (codecWorld_codec _) (codecWorld_hex _) exKeep_lower (fun _ => rfl) (a := exArgs) rtHash_eq ar_run1).1 "a".toList
    (by rw [if_pos rfl]; exact List.cons_ne_nil _ _)
  rw [if_pos rfl, ar_hist1] at hh
  obtain ⟨hroot, r, O, A⟩ := hh
  obtain ⟨f0, hl⟩ := loadByID_valid exEnv true (blankInv [] []) hroot O
  have G := (deposit_of_list ar_fitLess ar_placedLess).good A.toInArchive
  exact (C163_mirror_partial (codecWorld_codec _) (codecWorld_hex _) exKeep_lower (fun _ => rfl) hl A.id A.intact A.clear A.hash
    (deposit_of_list ar_fitLess ar_placedLess).adds (ar_mirrors arLess)
    (show (arEcho arFs1 arLess).2 = none by rw [ar_echo_eq]; decide) G.names G.targets G.paths G.safe G.placed G.change
    (fun f hf g hg x y h1 h2 => G.noConflict x y (Or.inr ⟨f, hf, h1⟩) (Or.inr ⟨g, hg, h2⟩)) G.noCollision
    (fun h0 => absurd h0 (Nat.lt_irrefl 0)) (rtXp_apart _) true).1

/-- C162 covers it: the history of the object is the first folder, then the second -/
theorem ar_mirror_history : Retrieved exKeep exEnv true (blankInv [] []) flatLayout (applyOps arFs1 (arEcho arFs1 arLess).1) "a".toList
    (histOf [[("c/d".toList, [1, 2]), ("e".toList, [7]), ("f".toList, [1, 2])], [("e".toList, [9, 9, 9, 9]), ("f".toList, [1, 2])]]) := by
  have run := ArchiveRun.update "a".toList (arSession true arLess) true arLess ar_run1 (by rw [if_pos rfl]; exact List.cons_ne_nil _ _)
    (by rw [if_pos rfl, ar_hist1]; exact deposit_of_list ar_fitLess ar_placedLess)
    (show (arEcho arFs1 arLess).2 = none by rw [ar_echo_eq]; decide)
  have := C162_archive_partial (codecWorld_codec _) (codecWorld_hex _) exKeep_lower (fun _ => rfl) (a := exArgs) rtHash_eq run (id := "a".toList)
    (by rw [if_pos rfl]; exact List.append_ne_nil_of_right_ne_nil _ (List.cons_ne_nil _ _))
  rw [if_pos rfl, if_pos rfl, ar_hist1] at this
  rw [histOf_snoc true [replList rtFiles []] arLess] at this
  exact this

/-- `c/d` gone, the others as they were -/
def arGone : List InFile := [⟨"content".toList, "e".toList, [7]⟩, ⟨"metadata".toList, "f".toList, [1, 2]⟩]

theorem ar_gone : arEcho arFs1 arGone = ([], none) := by
  rw [ar_echo_eq]
  decide

/-- **C163 fails** if files were only removed from the folder: they stay in the latest version. -/
theorem C163_full_fails : ¬ C163_full := by
  intro hf
  have hh := (archiveRun_holds (codecWorld_codec _) (codecWorld_hex _) exKeep_lower (fun _ => rfl) (a := exArgs) rtHash_eq ar_run1).1 "a".toList
    (by rw [if_pos rfl]; exact List.cons_ne_nil _ _)
  rw [if_pos rfl, ar_hist1] at hh
  obtain ⟨hroot, r, O, A⟩ := hh
  obtain ⟨f0, hl⟩ := loadByID_valid exEnv true (blankInv [] []) hroot O
  have hpath : ∀ f ∈ arGone, ∀ q, StatePathOf exKeep f q → q = f.path := fun f _ q hq => rtState.1 hq
  have hhead : ∀ q b, VersionContent (subFS arFs1 (rootPath flatLayout "a".toList).1) (loadedInv 0 r) (loadedInv 0 r).head q b ↔
      (q, b) ∈ replList rtFiles [] := fun q b => (A.head q b).trans (histOf_last _ _ _)
  have hsame : ∀ f ∈ arGone, HasFile (loadedInv 0 r) (loadedInv 0 r).head f.path (rtHash f.data) := by
    intro f hf
    refine (A.hasFile _ _ _).2 ⟨f.data, (hhead _ _).2 ?_, rfl⟩
    revert f; decide
  obtain ⟨i, f, h1, _, _, h2⟩ := hf exKeep exEnv true (blankInv [] []) flatLayout exArgs arFs1 "a".toList (arSession true arGone) true arGone
    rtHash _ f0 _ rtXp false (codecWorld_codec _) (codecWorld_hex _) exKeep_lower (fun _ => rfl) hl A.id A.intact A.clear A.hash
    ((rtSession_adds arGone).just.echo true).addsFiles (ar_mirrors arGone) (congrArg Prod.snd ar_gone)
    (rt_names (fun f hf => ⟨0, by revert f; decide⟩))
    (by
      rw [targets_same (j := { newInv "a".toList exArgs.spec exArgs.alg exArgs.contentDir exArgs.fixity with head := verName 0 2 })]
      · decide
      · show verName (loadedInv 0 r).paddingLength _ = _
        rw [A.intact.ok.pad]; rfl
      · exact A.cdir)
    (rt_paths (by decide)) (fun f hf q hq => by
      rw [hpath f hf q hq]
      have : ∀ f ∈ arGone, ∀ seg ∈ splitOn '/' f.path, seg ≠ [] ∧ seg ≠ ".".toList ∧ seg ≠ "..".toList := by decide
      exact this f hf)
    (fun f hf q hq => by rw [hpath f hf q hq]; exact Or.inr ⟨⟨_, hsame f hf⟩, fun _ => Or.inl (hsame f hf)⟩)
    (by
      rintro f hf g hg x y h1 h2 ⟨t, ht⟩
      rw [hpath f hf x h1, hpath g hg y h2] at ht
      have : ∀ f ∈ arGone, ∀ g ∈ arGone, ¬ (f.path ++ ['/']) <+: g.path := by decide
      exact this f hf g hg ⟨t, by rw [ht]; simp⟩)
    (by
      have key : ∀ b, KnownContent (subFS arFs1 (rootPath flatLayout "a".toList).1) (loadedInv 0 r) arGone b → b = [7] ∨ b = [1, 2] := by
        intro b hb
        rcases A.known hb with ⟨E, hE, q, hq⟩ | ⟨f, hf, rfl⟩
        · cases List.mem_singleton.1 hE
          have : ∀ x ∈ replList rtFiles [], x.2 = [7] ∨ x.2 = [1, 2] := by decide
          exact this _ hq
        · have : ∀ f ∈ arGone, f.data = [7] ∨ f.data = [1, 2] := by decide
          exact this f hf
      intro b b' h1 h2
      rcases key b h1 with rfl | rfl <;> rcases key b' h2 with rfl | rfl <;> decide)
    (rtXp_apart _)
  have h0 : applyOps arFs1 (updateCmd exKeep exEnv true (blankInv [] []) flatLayout exArgs arFs1 "a".toList (arSession true arGone)).1 = arFs1 := by
    rw [show updateCmd exKeep exEnv true (blankInv [] []) flatLayout exArgs arFs1 "a".toList (arSession true arGone) = ([], none) from ar_gone]
    rfl
  rw [h0] at h1 h2
  have hR := C162_archive_partial (codecWorld_codec _) (codecWorld_hex _) exKeep_lower (fun _ => rfl) (a := exArgs) rtHash_eq ar_run1
    (id := "a".toList) (by rw [if_pos rfl]; exact List.cons_ne_nil _ _)
  rw [if_pos rfl, ar_hist1] at hR
  obtain ⟨i', f', r', g1, _, _, _, g2⟩ := hR
  have g1 : loadByID exKeep exEnv true (blankInv [] []) flatLayout arFs1 "a".toList = .ok (i', f') := g1
  rw [h1] at g1
  cases g1
  have g3 := ((g2 rtXp false (rtXp_apart _)).2 "c/d".toList [1, 2] (fun h => by cases h)).2 ⟨"c/d".toList, rfl, (histOf_last _ _ _).2 (by decide)⟩
  obtain ⟨q, hq, g, hg, hgq, _⟩ := (h2 "c/d".toList [1, 2] (fun h => by cases h)).1 g3
  have hq' : q = "c/d".toList := by
    have : rtXp q = .ok (some q) := rfl
    rw [this] at hq
    cases hq; rfl
  rw [hpath g hg q hgq] at hq'
  have : ∀ g ∈ arGone, g.path ≠ "c/d".toList := by decide
  exact this g hg hq'

end Gocfl
