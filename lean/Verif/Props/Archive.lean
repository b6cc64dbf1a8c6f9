import Verif.Props.Replace
import Verif.Props.Concurrent

/-! # A storage root keeps what was put into it (C162)

A run of `add` and `update` commands is described by what each version should hold; the objects hold exactly that. -/

namespace Gocfl

/-- what the versions of an object hold, the first one first -/
abbrev History := List (Str → Bytes → Prop)

/-- what the last version holds -/
def History.last (H : History) : Str → Bytes → Prop := H.getLastD (fun _ _ => False)

/-- the content is in one of the versions or among the files -/
def InHistory (H : History) (files : List InFile) (b : Bytes) : Prop :=
  (∃ E ∈ H, ∃ q, E q b) ∨ ∃ f ∈ files, f.data = b

/-- What is asked of the files of a command for an object with the history `H`; nothing here speaks of inventories. -/
structure Fit (w : World) (h : Bytes → Str) (a : CreateArgs) (id : Str) (dup : Bool) (s : Session) (files : List InFile)
    (H : History) : Prop where
  /-- the session adds the files and nothing else -/
  adds : AddsFiles s dup files
  /-- their names stay in the content directory, each content has its own file -/
  names : SafeNames w s
  targets : (targets w { newInv id a.spec a.alg a.contentDir a.fixity with head := verName 0 ((H.length + 1 : Nat) : Int) } s.body).Nodup
  /-- their logical paths are safe and differ -/
  paths : DistinctPaths w files
  safe : ∀ f ∈ files, ∀ q, StatePathOf w f q → SafePath q
  /-- one of them is new or changed -/
  change : ∃ f ∈ files, ∃ q, StatePathOf w f q ∧ ¬ H.last q f.data
  /-- no path is at the same time a folder -/
  noConflict : ∀ x y b c, After w s files H.last x b → After w s files H.last y c → ¬ UnderDir x y
  /-- no two different contents with one digest -/
  noCollision : ∀ b b', InHistory H files b → InHistory H files b' → h b = h b' → b = b'

/-- ... and that no content moves onto a path that is there -/
structure Deposit (w : World) (h : Bytes → Str) (a : CreateArgs) (id : Str) (dup : Bool) (s : Session) (files : List InFile)
    (H : History) : Prop extends Fit w h a id dup s files H where
  /-- a path that is not in the last version never had this content; one that is there is unchanged, or gets a content
  that no other file has (the latter only if duplicates are looked for) -/
  placed : ∀ f ∈ files, ∀ q, StatePathOf w f q →
    ((∀ b, ¬ H.last q b) ∧ ∀ E ∈ H, ¬ E q f.data) ∨
    ((∃ b, H.last q b) ∧ (dup = true → H.last q f.data ∨
      ((∀ E ∈ H, ∀ q', ¬ E q' f.data) ∧ ∀ g ∈ files, g.data = f.data → g = f)))

/-- the object in `fs` with the inventory `inv`, in memory or stored, has the history `H` -/
structure InArchive (w : World) (h : Bytes → Str) (a : CreateArgs) (id : Str) (fs : FS) (inv : Inv) (H : History) : Prop where
  staged : Staged w fs 0 H.length inv
  clear : Clear inv
  alg : inv.digestAlg = a.alg
  hash : w.hash inv.digestAlg = some h
  id : inv.id = id
  cdir : inv.contentDirectory = a.contentDir
  distinct : ∀ b b', StoredContent fs inv b → StoredContent fs inv b' → h b = h b' → b = b'
  content : ∀ k E, H[k]? = some E → ∀ q b, VersionContent fs inv (verName 0 ((k + 1 : Nat) : Int)) q b ↔ E q b

/-- the object in `fs` with the stored inventory `inv` has the history `H` -/
structure Archived (w : World) (h : Bytes → Str) (a : CreateArgs) (id : Str) (fs : FS) (inv : Inv) (H : History) : Prop
    extends InArchive w h a id fs inv H where
  intact : Intact w fs 0 H.length inv

section
variable {w : World} {h : Bytes → Str} {a : CreateArgs} {id : Str} {fs : FS} {inv : Inv} {H : History} {dup : Bool}
  {s : Session} {files : List InFile}

theorem InArchive.digest (A : InArchive w h a id fs inv H) {d : Str} {m : List Str} {c : Str} {b : Bytes} (hd : (d, m) ∈ inv.manifest) (hc : c ∈ m)
    (hb : mget fs c = some b) : h b = d := by
  obtain ⟨b0, hash, g1, g2, g3⟩ := A.staged.files.content d m c hd hc
  rw [hb] at g1; cases g1
  rw [A.hash] at g2; cases g2
  exact g3.trans (A.clear.lower d (mem_mkeys_of_mem hd))

/-- a digest of a version is that of its content -/
theorem InArchive.hasFile (A : InArchive w h a id fs inv H) (v q d : Str) :
    HasFile inv v q d ↔ ∃ b, VersionContent fs inv v q b ∧ h b = d := by
  constructor
  · intro hv
    obtain ⟨ver, ps, o1, o2, o3⟩ := (show HasFile inv v q d from hv)
    obtain ⟨m, hm⟩ := A.staged.ok.covered.1 v ver d o1 (mem_mkeys_of_mem o2)
    obtain ⟨c, hcm⟩ := List.exists_mem_of_ne_nil _ (A.staged.ok.covered.2 d m hm)
    obtain ⟨b, hash, g1, _, _⟩ := A.staged.files.content d m c hm hcm
    exact ⟨b, ⟨d, m, c, hv, hm, hcm, g1⟩, A.digest hm hcm g1⟩
  · rintro ⟨b, ⟨d', m, c, h1, h2, h3, h4⟩, rfl⟩
    rw [A.digest h2 h3 h4]
    exact h1

theorem InArchive.hasPath (A : InArchive w h a id fs inv H) (v q : Str) : HasPath inv v q ↔ ∃ b, VersionContent fs inv v q b := by
  constructor
  · rintro ⟨d, hd⟩
    obtain ⟨b, hb, _⟩ := (A.hasFile v q d).1 hd
    exact ⟨b, hb⟩
  · rintro ⟨b, hb⟩
    exact ⟨h b, (A.hasFile v q _).2 ⟨b, hb, rfl⟩⟩

/-- every version is one of the history -/
theorem InArchive.version (A : InArchive w h a id fs inv H) {v q d : Str} (hv : HasFile inv v q d) :
    ∃ (k : Nat) (E : Str → Bytes → Prop), H[k]? = some E ∧ v = verName 0 ((k + 1 : Nat) : Int) := by
  obtain ⟨ver, ps, o1, _⟩ := hv
  obtain ⟨k, k1, k2, rfl⟩ := A.staged.ok.wf.1.mem_keys.1 (mem_mkeys_of_mem o1)
  have hk : k - 1 < H.length := by omega
  refine ⟨k - 1, H[k - 1], List.getElem?_eq_getElem hk, ?_⟩
  rw [A.staged.ok.pad, show k - 1 + 1 = k by omega]
  rfl

theorem InArchive.inHistory (A : InArchive w h a id fs inv H) {v q : Str} {b : Bytes} (hv : VersionContent fs inv v q b) :
    ∃ E ∈ H, E q b := by
  obtain ⟨d, m, c, h1, _⟩ := (show VersionContent fs inv v q b from hv)
  obtain ⟨k, E, hk, rfl⟩ := A.version h1
  exact ⟨E, List.mem_of_getElem? hk, (A.content k E hk q b).1 hv⟩

/-- the head of the object is the last version of the history -/
theorem InArchive.head (A : InArchive w h a id fs inv H) (q : Str) (b : Bytes) : VersionContent fs inv inv.head q b ↔ H.last q b := by
  by_cases hH : H = []
  · subst hH
    constructor
    · intro hv
      obtain ⟨E, hE, _⟩ := A.inHistory hv
      cases hE
    · intro hc; exact hc.elim
  · have hlen : 0 < H.length := List.length_pos_of_ne_nil hH
    have hk : H[H.length - 1]? = some H.last := by
      unfold History.last
      rw [List.getLastD_eq_getLast?, List.getLast?_eq_getElem?, List.getElem?_eq_getElem (by omega)]
      rfl
    have := A.content _ _ hk q b
    rw [show H.length - 1 + 1 = H.length by omega] at this
    rw [A.staged.ok.wf.1.head_eq hlen, A.staged.ok.pad]
    exact this

theorem InArchive.known (A : InArchive w h a id fs inv H) {b : Bytes} (hb : KnownContent fs inv files b) : InHistory H files b := by
  rcases hb with ⟨d, m, c, h1, h2, h3⟩ | hb
  · obtain ⟨v, q, hv⟩ := A.clear.used d (mem_mkeys_of_mem h1)
    obtain ⟨E, hE, he⟩ := A.inHistory ⟨d, m, c, hv, h1, h2, h3⟩
    exact Or.inl ⟨E, hE, q, he⟩
  · exact Or.inr hb

theorem targets_same {i j : Inv} (h1 : i.head = j.head) (h2 : i.contentDirectory = j.contentDirectory) (cs : List Call) :
    targets w i cs = targets w j cs := by
  unfold targets
  congr 1
  funext x
  unfold targetOf buildManifestName buildManifestNameVersion Inv.contentDir
  rw [h1, h2]

/-- the files in the object are those of the history, for what an update asks -/
theorem Fit.update (D : Fit w h a id dup s files H) (A : InArchive w h a id fs inv H) :
    (Gocfl.targets w { inv with head := verName inv.paddingLength ((H.length + 1 : Nat) : Int) } s.body).Nodup ∧
    (∃ f ∈ files, ∃ q, StatePathOf w f q ∧ ¬ HasFile inv inv.head q (h f.data)) ∧
    (∀ x y, PathThen w s inv files x → PathThen w s inv files y → ¬ UnderDir x y) ∧
    ∀ b b', KnownContent fs inv files b → KnownContent fs inv files b' → h b = h b' → b = b' := by
  refine ⟨?_, ?_, ?_, fun b b' h1 h2 => D.noCollision b b' (A.known h1) (A.known h2)⟩
  · rw [targets_same (j := { newInv id a.spec a.alg a.contentDir a.fixity with head := verName 0 ((H.length + 1 : Nat) : Int) })]
    · exact D.targets
    · show verName inv.paddingLength _ = _
      rw [A.staged.ok.pad]; rfl
    · exact A.cdir
  · obtain ⟨f, hf, q, hq, hn⟩ := D.change
    refine ⟨f, hf, q, hq, fun hc => hn ?_⟩
    obtain ⟨b, hb, hbd⟩ := (A.hasFile _ _ _).1 hc
    obtain ⟨E, hE, he⟩ := A.inHistory hb
    have := D.noCollision b f.data (Or.inl ⟨E, hE, q, he⟩) (Or.inr ⟨f, hf, rfl⟩) hbd
    rw [← this]
    exact (A.head q b).1 hb
  · have key : ∀ x, PathThen w s inv files x → ∃ b, After w s files H.last x b := by
      intro x hx
      by_cases hf : ∃ f ∈ files, StatePathOf w f x
      · obtain ⟨f, h1, h2⟩ := hf
        exact ⟨f.data, Or.inl ⟨f, h1, h2, rfl⟩⟩
      · rcases hx with ⟨hk, hx⟩ | hx
        · obtain ⟨b, hb⟩ := (A.hasPath _ _).1 hx
          exact ⟨b, Or.inr ⟨fun f h1 h2 => hf ⟨f, h1, h2⟩, hk, (A.head x b).1 hb⟩⟩
        · exact absurd hx hf
    intro x y hx hy
    obtain ⟨b, hb⟩ := key x hx
    obtain ⟨c, hc⟩ := key y hy
    exact D.noConflict x y b c hb hc

/-- the files can be added to the object -/
theorem Deposit.good (D : Deposit w h a id dup s files H) (A : InArchive w h a id fs inv H) :
    GoodUpdate w h dup fs inv H.length s files := by
  obtain ⟨t1, t2, t3, t4⟩ := D.toFit.update A
  refine ⟨D.names, t1, D.paths, D.safe, ?_, t2, t3, t4⟩
  intro f hf q hq
  have same : ∀ v b, VersionContent fs inv v q b → h b = h f.data → b = f.data := by
    intro v b hv hb
    obtain ⟨E, hE, he⟩ := A.inHistory hv
    exact D.noCollision b _ (Or.inl ⟨E, hE, q, he⟩) (Or.inr ⟨f, hf, rfl⟩) hb
  rcases D.placed f hf q hq with ⟨h1, h2⟩ | ⟨⟨b, h1⟩, h2⟩
  · left
    refine ⟨fun hp => ?_, fun v hv => ?_⟩
    · obtain ⟨b, hb⟩ := (A.hasPath _ _).1 hp
      exact h1 b ((A.head q b).1 hb)
    · obtain ⟨b, hb, hbd⟩ := (A.hasFile _ _ _).1 hv
      obtain ⟨E, hE, he⟩ := A.inHistory hb
      rw [same v b hb hbd] at he
      exact h2 E hE he
  · right
    refine ⟨(A.hasPath _ _).2 ⟨b, (A.head q b).2 h1⟩, fun hd => ?_⟩
    rcases h2 hd with h3 | ⟨h3, h4⟩
    · exact Or.inl ((A.hasFile _ _ _).2 ⟨f.data, (A.head q _).2 h3, rfl⟩)
    · refine Or.inr ⟨fun hk => ?_, fun g hg hgd => h4 g hg ?_⟩
      · obtain ⟨v, q', hv⟩ := A.clear.used _ hk
        obtain ⟨b', hb, hbd⟩ := (A.hasFile _ _ _).1 hv
        obtain ⟨E, hE, he⟩ := A.inHistory hb
        have := D.noCollision b' f.data (Or.inl ⟨E, hE, q', he⟩) (Or.inr ⟨f, hf, rfl⟩) hbd
        rw [this] at he
        exact h3 E hE q' he
      · exact D.noCollision _ _ (Or.inr ⟨g, hg, rfl⟩) (Or.inr ⟨f, hf, rfl⟩) hgd

theorem after_congr {E E' : Str → Bytes → Prop} (h : ∀ q b, E q b ↔ E' q b) (q : Str) (b : Bytes) :
    After w s files E q b ↔ After w s files E' q b := by
  unfold After Replaced
  simp only [h]

theorem after_nothing : After w s files (fun _ _ => False) = Replaced w files (fun _ _ => False) := by
  unfold After
  simp only [and_false]

/-- one session more -/
theorem InArchive.next (hc : Codec w) (hx : HexHash w) (hL : LowerHash w) (ht : ∀ t, w.time (w.time t) = w.time t)
    (A : InArchive w h a id fs inv H) (D : Deposit w h a id dup s files H) (he : (session w inv s).err = none) :
    ∃ r, ValidObject w (applyOps fs (session w inv s).obj.trace) 0 (H.length + 1) r ∧
      Archived w h a id (applyOps fs (session w inv s).obj.trace) (loadedInv 0 r) (H ++ [After w s files H.last]) ∧
      ReadBack w (session w inv s).obj.inv r ∧ CleanSession w 0 H.length inv s := by
  have hg := D.good A
  have hcl := goodUpdate_clean hx hL A.staged.ok A.clear D.adds A.hash hg he (fun h0 => absurd h0 (Nat.lt_irrefl 0))
  obtain ⟨r, U, R⟩ := updated_of_staged hc hx hL ht A.staged A.clear D.adds A.hash hg he (fun h0 => absurd h0 (Nat.lt_irrefl 0))
  have hI : Intact w (applyOps fs (session w inv s).obj.trace) 0 (H ++ [After w s files H.last]).length (loadedInv 0 r) := by
    rw [List.length_append]; exact U.intact
  refine ⟨r, U.valid, ⟨⟨hI.staged, U.clear, U.alg.trans A.alg, ?_, U.id.trans A.id, U.cdir.trans A.cdir, ?_, ?_⟩, hI⟩, R, hcl⟩
  · show w.hash r.inv.digestAlg = some h
    rw [U.alg]; exact A.hash
  · intro b b' h1 h2
    exact D.noCollision b b' (A.known (U.known b h1)) (A.known (U.known b' h2))
  · intro k E hk q b
    by_cases hkl : k < H.length
    · rw [List.getElem?_append_left hkl] at hk
      rw [U.old _ (A.staged.ok.wf.1.mem_keys.2 ⟨k + 1, by omega, by omega, by rw [A.staged.ok.pad]; rfl⟩)]
      exact A.content k E hk q b
    · have hke : k = H.length := by
        have := List.getElem?_eq_some_iff.1 hk
        obtain ⟨h1, _⟩ := this
        simp only [List.length_append, List.length_singleton] at h1
        omega
      subst hke
      rw [List.getElem?_append_right (Nat.le_refl _), Nat.sub_self] at hk
      cases hk
      have := U.head q b
      rw [U.valid.inv.head] at this
      rw [← after_congr A.head]
      exact this

theorem Archived.step (hc : Codec w) (hx : HexHash w) (hL : LowerHash w) (ht : ∀ t, w.time (w.time t) = w.time t)
    (A : Archived w h a id fs inv H) (D : Deposit w h a id dup s files H) (he : (session w inv s).err = none) :
    ∃ r, ValidObject w (applyOps fs (session w inv s).obj.trace) 0 (H.length + 1) r ∧
      Archived w h a id (applyOps fs (session w inv s).obj.trace) (loadedInv 0 r) (H ++ [After w s files H.last]) := by
  obtain ⟨r, h1, h2, _⟩ := A.next hc hx hL ht D he
  exact ⟨r, h1, h2⟩

end

/-! ## Commands -/

/-- `t` changes nothing in the folder -/
def Outside (folder : Str) (t : List FsOp) : Prop := ∀ op ∈ t, stripFolder folder op.path = none

theorem subFS_outside {folder : Str} {t : List FsOp} (h : Outside folder t) (fs : FS) : subFS (applyOps fs t) folder = subFS fs folder := by
  induction t generalizing fs with
  | nil => rfl
  | cons op t ih =>
    have h1 := h op (List.mem_cons_self ..)
    show subFS (applyOps (op.apply fs) t) folder = _
    rw [ih (fun o ho => h o (List.mem_cons_of_mem _ ho))]
    cases op <;> exact subFS_mset_other fs _ h1

theorem outside_lift {f g : Str} (h : Apart f g) (t : List FsOp) : Outside g (t.map (FsOp.lift f)) := by
  intro op hop
  obtain ⟨o, _, rfl⟩ := List.mem_map.1 hop
  cases hs : stripFolder g (o.lift f).path with
  | none => rfl
  | some r =>
    have := stripFolder_eq_some.1 hs
    rw [lift_path] at this
    exact absurd this (under_apart h _ _)

/-- A run of commands on a storage root, with the histories of the objects: successful `add` and `update` commands, and
anything that is written outside the folders of the objects (`aside`). `D` says what is asked of the files. -/
inductive ArchiveRun (w : World) (env : Env) (plain : Bool) (blank : Inv) (ls : List (Str → Res Str)) (a : CreateArgs)
    (D : Str → Bool → Session → List InFile → History → Prop) : FS → (Str → History) → Prop where
  | start (fs : FS) : ArchiveRun w env plain blank ls a D fs (fun _ => [])
  | aside {fs : FS} {H : Str → History} (t : List FsOp) (run : ArchiveRun w env plain blank ls a D fs H)
      (outside : ∀ id, H id ≠ [] → Outside (rootPath ls id).1 t) : ArchiveRun w env plain blank ls a D (applyOps fs t) H
  | add {fs : FS} {H : Str → History} (id : Str) (s : Session) (dup : Bool) (files : List InFile)
      (run : ArchiveRun w env plain blank ls a D fs H) (args : GoodArgs a id) (new : objectExists ls fs id = .ok false)
      (apart : ∀ id', H id' ≠ [] → Apart (rootPath ls id).1 (rootPath ls id').1)
      (good : D id dup s files []) (ok : (addCmd w env plain blank ls a fs id s).2 = none) :
      ArchiveRun w env plain blank ls a D (applyOps fs (addCmd w env plain blank ls a fs id s).1)
        (fun i => if i = id then [Replaced w files (fun _ _ => False)] else H i)
  | update {fs : FS} {H : Str → History} (id : Str) (s : Session) (dup : Bool) (files : List InFile)
      (run : ArchiveRun w env plain blank ls a D fs H) (there : H id ≠ [])
      (good : D id dup s files (H id)) (ok : (updateCmd w env plain blank ls a fs id s).2 = none) :
      ArchiveRun w env plain blank ls a D (applyOps fs (updateCmd w env plain blank ls a fs id s).1)
        (fun i => if i = id then H id ++ [After w s files (H id).last] else H i)

/-- the version of the object in the folder comes out as `E` -/
def Yields (w : World) (i : Inv) (fs : FS) (v : Str) (E : Str → Bytes → Prop) : Prop :=
  ∀ (xp : ExtractPath) (wm : Bool), NamesApart xp (fun q => ∃ b, E q b) →
    (extract w i fs xp v wm).err = none ∧
    ∀ x b, (wm = true → x ≠ manifestName i.digestAlg) →
      (mget (applyOps [] (extract w i fs xp v wm).trace) x = some b ↔ ∃ q, xp q = .ok (some x) ∧ E q b)

/-- the object with this id opens, is valid, and each version comes out as the history says -/
def Retrieved (w : World) (env : Env) (plain : Bool) (blank : Inv) (ls : List (Str → Res Str)) (fs : FS) (id : Str) (H : History) : Prop :=
  ∃ i f r, loadByID w env plain blank ls fs id = .ok (i, f) ∧ i.id = id ∧
    ValidObject w (subFS fs (rootPath ls id).1) 0 H.length r ∧
    (∀ k E, H[k]? = some E → Yields w i (subFS fs (rootPath ls id).1) (verName 0 ((k + 1 : Nat) : Int)) E) ∧
    Yields w i (subFS fs (rootPath ls id).1) "latest".toList H.last

section
variable {w : World} {env : Env} {plain : Bool} {blank : Inv} {ls : List (Str → Res Str)} {a : CreateArgs} {h : Bytes → Str}

/-- the object of the id is archived -/
def HoldsHistory (w : World) (ls : List (Str → Res Str)) (a : CreateArgs) (h : Bytes → Str) (fs : FS) (id : Str) (H : History) : Prop :=
  (rootPath ls id).2 = false ∧ ∃ r, ValidObject w (subFS fs (rootPath ls id).1) 0 H.length r ∧
    Archived w h a id (subFS fs (rootPath ls id).1) (loadedInv 0 r) H

theorem HoldsHistory.outside {fs : FS} {id : Str} {H : History} (A : HoldsHistory w ls a h fs id H) {t : List FsOp}
    (ho : Outside (rootPath ls id).1 t) : HoldsHistory w ls a h (applyOps fs t) id H := by
  unfold HoldsHistory
  rw [subFS_outside ho]
  exact A

theorem selectVersion_verName (inv : Inv) (p : Int) (k : Nat) : selectVersion inv (verName p (k : Int)) = verName p (k : Int) := by
  unfold selectVersion
  rw [if_neg]
  rintro (hc | hc)
  · have := verName_head p k
    rw [hc] at this; revert this; decide
  · have := verName_head p k
    rw [hc] at this; revert this; decide

theorem Archived.yields {fs : FS} {inv : Inv} {id : Str} {H : History} (A : Archived w h a id fs inv H) (hH : H ≠ []) :
    (∀ k E, H[k]? = some E → Yields w inv fs (verName 0 ((k + 1 : Nat) : Int)) E) ∧ Yields w inv fs "latest".toList H.last := by
  have hlen : 0 < H.length := List.length_pos_of_ne_nil hH
  have key : ∀ k E, H[k]? = some E → ∀ v, selectVersion inv v = verName 0 ((k + 1 : Nat) : Int) → Yields w inv fs v E := by
    intro k E hk v hv xp wm hxp
    have hkl : k < H.length := by
      obtain ⟨h1, _⟩ := List.getElem?_eq_some_iff.1 hk
      exact h1
    obtain ⟨ver, hver⟩ := mem_mkeys_iff.1 (A.intact.ok.wf.1.mem_keys.2 ⟨k + 1, by omega, by omega, rfl⟩)
    have hver := mget_of_mem A.intact.ok.wf.1.nodup hver
    rw [A.intact.ok.pad] at hver
    have hc := A.content k E hk
    obtain ⟨h1, h2⟩ := version_extract A.intact A.clear A.hash A.distinct (v := v) (ver := ver) (by rw [hv]; exact hver) (xp := xp) (by
      rw [hv]
      have hp : ∀ q, HasPath inv (verName 0 ((k + 1 : Nat) : Int)) q → ∃ b, E q b := by
        intro q hq
        obtain ⟨b, hb⟩ := (A.hasPath _ _).1 hq
        exact ⟨b, (hc q b).1 hb⟩
      exact ⟨fun q hq => hxp.total q (hp q hq), fun q q' x h1 h2 => hxp.injective q q' x (hp q h1) (hp q' h2)⟩) wm
    refine ⟨h1, fun x b hx0 => ?_⟩
    rw [h2 x b hx0, hv]
    simp only [hc]
  refine ⟨fun k E hk => key k E hk _ (selectVersion_verName _ _ _), ?_⟩
  have hk : H[H.length - 1]? = some H.last := by
    unfold History.last
    rw [List.getLastD_eq_getLast?, List.getLast?_eq_getElem?, List.getElem?_eq_getElem (by omega)]
    rfl
  refine key _ _ hk _ ?_
  unfold selectVersion
  rw [if_pos (Or.inl rfl), show H.length - 1 + 1 = H.length by omega, A.intact.ok.wf.1.head_eq hlen, A.intact.ok.pad]
  rfl

theorem HoldsHistory.retrieved {fs : FS} {id : Str} {H : History} (A : HoldsHistory w ls a h fs id H) (hH : H ≠ []) :
    Retrieved w env plain blank ls fs id H := by
  obtain ⟨hr, r, O, A⟩ := A
  obtain ⟨f, hf⟩ := loadByID_valid env plain blank hr O
  obtain ⟨h1, h2⟩ := A.yields hH
  exact ⟨_, f, r, hf, A.id, O, h1, h2⟩

/-- a new object has no history -/
theorem archived_new {id : Str} {inv : Inv} (hga : GoodArgs a id) (hh : w.hash a.alg = some h) (hini : (initObject a [] id).2 = .ok inv) :
    Archived w h a id (applyOps [] (initObject a [] id).1) inv [] := by
  obtain ⟨I, hI⟩ := intact_new (w := w) hga hini
  have hno : ∀ v q d, ¬ HasFile inv v q d := by
    rw [hI]
    rintro v q d ⟨ver, ps, hv, _⟩
    cases hv
  have hman : ∀ d m, (d, m) ∉ inv.manifest := by rw [hI]; intro d m hm; cases hm
  refine ⟨⟨I.staged, ⟨?_, ?_, ?_⟩, ?_, ?_, ?_, ?_, ?_, ?_⟩, I⟩
  · intro d hd
    obtain ⟨m, hm⟩ := mem_mkeys_iff.1 hd
    exact absurd hm (hman d m)
  · intro v q d d' h1; exact absurd h1 (hno _ _ _)
  · intro d hd
    obtain ⟨m, hm⟩ := mem_mkeys_iff.1 hd
    exact absurd hm (hman d m)
  · rw [hI]; rfl
  · rw [hI]; exact hh
  · rw [hI]; rfl
  · rw [hI]; rfl
  · rintro b b' ⟨d, m, c, hm, _⟩; exact absurd hm (hman d m)
  · intro k E hk; simp at hk

/-- the objects of a run are archived -/
theorem archiveRun_holds (hc : Codec w) (hx : HexHash w) (hL : LowerHash w) (ht : ∀ t, w.time (w.time t) = w.time t)
    (hh : w.hash a.alg = some h) {fs : FS} {H : Str → History} (hr : ArchiveRun w env plain blank ls a (Deposit w h a) fs H) :
    (∀ id, H id ≠ [] → HoldsHistory w ls a h fs id (H id)) ∧
    ∀ id id', H id ≠ [] → H id' ≠ [] → id ≠ id' → Apart (rootPath ls id).1 (rootPath ls id').1 := by
  induction hr with
  | start fs => exact ⟨fun id hid => absurd rfl hid, fun id _ hid => absurd rfl hid⟩
  | aside t _ ho ih => exact ⟨fun id hid => (ih.1 id hid).outside (ho id hid), ih.2⟩
  | @add fs H id s dup files _ hga hex hap D he ih =>
    have hadd : addCmd w env plain blank ls a fs id s = addObjectByPath w env plain blank ls a fs id s := by
      unfold addCmd; rw [hex]
    rw [hadd] at he ⊢
    unfold addObjectByPath at he ⊢
    rw [hex] at he ⊢
    simp only at he ⊢
    cases hcr : (createObject ls a fs id).2 with
    | error e => rw [hcr] at he; cases he
    | ok x =>
      obtain ⟨folder, inv⟩ := x
      rw [hcr] at he
      simp only at he ⊢
      obtain ⟨rfl, hinv, hemp, hops⟩ := createObject_ok hcr
      have hini : (initObject a [] id).2 = .ok inv := by
        unfold createObject at hcr
        simp only [hemp] at hcr
        obtain ⟨j, hj, hcr⟩ := res_bind_eq_ok.1 hcr
        split at hcr
        · cases hcr
        · cases hcr; exact hj
      have hops' : (createObject ls a fs id).1 = (initObject a [] id).1.map (FsOp.lift (rootPath ls id).1) := by
        unfold createObject; simp only [hemp]
      have hsub : subFS (applyOps fs ((createObject ls a fs id).1 ++ (inFolder (rootPath ls id).1 (session w inv s)).1)) (rootPath ls id).1 =
          applyOps (applyOps [] (initObject a [] id).1) (session w inv s).obj.trace := by
        rw [applyOps_append]
        unfold inFolder
        rw [subFS_applyOps_lift, hops', subFS_applyOps_lift, hemp]
      have A0 : Archived w h a id (applyOps [] (initObject a [] id).1) inv [] := archived_new hga hh hini
      obtain ⟨r, O, A⟩ := A0.step hc hx hL ht D he
      rw [← hsub] at O A
      have hout : ∀ id', Apart (rootPath ls id).1 (rootPath ls id').1 → Outside (rootPath ls id').1
          ((createObject ls a fs id).1 ++ (inFolder (rootPath ls id).1 (session w inv s)).1) := by
        intro id' hp op hop
        rcases List.mem_append.1 hop with h1 | h1
        · rw [hops'] at h1; exact outside_lift hp _ op h1
        · exact outside_lift hp _ op h1
      refine ⟨fun i hi => ?_, fun i j hi hj hij => ?_⟩
      · by_cases hii : i = id
        · subst hii
          simp only [if_true]
          refine ⟨rootPath_of_exists hex, r, O, ?_⟩
          rw [← after_nothing (s := s)]
          exact A
        · simp only [if_neg hii] at hi ⊢
          exact (ih.1 i hi).outside (hout i (hap i hi))
      · by_cases hii : i = id <;> by_cases hjj : j = id
        · exact absurd (hii.trans hjj.symm) hij
        · simp only [if_neg hjj] at hj
          rw [hii]
          exact hap j hj
        · simp only [if_neg hii] at hi
          rw [hjj]
          obtain ⟨h1, h2, h3⟩ := hap i hi
          exact ⟨h1.symm, h3, h2⟩
        · simp only [if_neg hii] at hi
          simp only [if_neg hjj] at hj
          exact ih.2 i j hi hj hij
  | @update fs H id s dup files _ hid D he ih =>
    obtain ⟨hroot, r0, O0, A0⟩ := ih.1 id hid
    obtain ⟨f0, hl⟩ := loadByID_valid env plain blank hroot O0
    have hex : objectExists ls fs id = .ok true := by
      cases hx : objectExists ls fs id with
      | error e => unfold objectExists at hx; rw [hroot] at hx; cases hx
      | ok b =>
        have : b = true := by
          rw [C94_exists_exact _ _ _ _ hx]
          obtain ⟨num, _, hd, _⟩ := A0.intact.decl
          exact ⟨_, _, by rw [← mget_subFS]; exact hd⟩
        rw [this]
    have hupd : updateCmd w env plain blank ls a fs id s = inFolder (rootPath ls id).1 (session w (loadedInv 0 r0) s) := by
      unfold updateCmd addObjectByPath
      simp only [hex, hl]
    rw [hupd] at he ⊢
    have hsub : subFS (applyOps fs (inFolder (rootPath ls id).1 (session w (loadedInv 0 r0) s)).1) (rootPath ls id).1 =
        applyOps (subFS fs (rootPath ls id).1) (session w (loadedInv 0 r0) s).obj.trace := subFS_applyOps_lift _ _ _
    obtain ⟨r, O, A⟩ := A0.step hc hx hL ht D he
    rw [← hsub] at O A
    refine ⟨fun i hi => ?_, fun i j hi hj hij => ih.2 i j ?_ ?_ hij⟩
    · by_cases hii : i = id
      · subst hii
        simp only [if_true]
        exact ⟨hroot, r, by rw [List.length_append]; exact O, A⟩
      · simp only [if_neg hii] at hi ⊢
        exact (ih.1 i hi).outside (outside_lift (ih.2 id i hid hi (Ne.symm hii)) _)
    · by_cases hii : i = id
      · rw [hii]; exact hid
      · simpa only [if_neg hii] using hi
    · by_cases hjj : j = id
      · rw [hjj]; exact hid
      · simpa only [if_neg hjj] using hj

/-- **C162.** After any run of successful `add` and `update` commands, mirroring or not, on any objects, every object opens
under its id, is valid, and every version it ever had comes out with exactly the files it was given. -/
theorem C162_archive_partial (hc : Codec w) (hx : HexHash w) (hL : LowerHash w) (ht : ∀ t, w.time (w.time t) = w.time t)
    (hh : w.hash a.alg = some h) {fs : FS} {H : Str → History} (hr : ArchiveRun w env plain blank ls a (Deposit w h a) fs H) {id : Str}
    (hid : H id ≠ []) : Retrieved w env plain blank ls fs id (H id) :=
  ((archiveRun_holds hc hx hL ht hh hr).1 id hid).retrieved hid

end

/-- the full statement of C161: also where a content moves onto a path that is there -/
def C161_full : Prop := ∀ (w : World) (env : Env) (plain : Bool) (blank : Inv) (ls : List (Str → Res Str)) (a : CreateArgs) (fs : FS)
    (id : Str) (s : Session) (dup : Bool) (files : List InFile) (h : Bytes → Str) (inv : Inv) (f0 : List Fnd) (N : Nat) (xp : ExtractPath)
    (wm : Bool), Codec w → HexHash w → LowerHash w → (∀ t, w.time (w.time t) = w.time t) →
    loadByID w env plain blank ls fs id = .ok (inv, f0) → inv.id = id → Intact w (subFS fs (rootPath ls id).1) 0 N inv → Clear inv →
    w.hash inv.digestAlg = some h → AddsFiles s dup files → (updateCmd w env plain blank ls a fs id s).2 = none → SafeNames w s →
    (targets w { inv with head := verName inv.paddingLength ((N + 1 : Nat) : Int) } s.body).Nodup → DistinctPaths w files →
    (∀ f ∈ files, ∀ q, StatePathOf w f q → SafePath q) →
    (∃ f ∈ files, ∃ q, StatePathOf w f q ∧ ¬ HasFile inv inv.head q (h f.data)) →
    (∀ x y, PathThen w s inv files x → PathThen w s inv files y → ¬ UnderDir x y) →
    (∀ b b', KnownContent (subFS fs (rootPath ls id).1) inv files b → KnownContent (subFS fs (rootPath ls id).1) inv files b' →
      h b = h b' → b = b') →
    NamesApart xp (PathThen w s inv files) →
    ComesOut w env plain blank ls (applyOps fs (updateCmd w env plain blank ls a fs id s).1) id xp wm
      (After w s files (VersionContent (subFS fs (rootPath ls id).1) inv inv.head))

/-- the full statement of C162: also where a content moves onto a path that is there -/
def C162_full : Prop := ∀ (w : World) (env : Env) (plain : Bool) (blank : Inv) (ls : List (Str → Res Str)) (a : CreateArgs) (h : Bytes → Str)
    (fs : FS) (H : Str → History) (id : Str), Codec w → HexHash w → LowerHash w → (∀ t, w.time (w.time t) = w.time t) →
    w.hash a.alg = some h → ArchiveRun w env plain blank ls a (Fit w h a) fs H → H id ≠ [] → Retrieved w env plain blank ls fs id (H id)

/-! ## Concrete cases -/

/-- what a list of paths and contents describes -/
def InListing (l : List (Str × Bytes)) : Str → Bytes → Prop := fun q b => (q, b) ∈ l

/-- the files and contents of a list -/
def listOf (files : List InFile) : List (Str × Bytes) := files.map (fun f => (f.path, f.data))

/-- what is in the list after the files were put into it -/
def replList (files : List InFile) (l : List (Str × Bytes)) : List (Str × Bytes) :=
  listOf files ++ l.filter (fun x => x.1 ∉ files.map InFile.path)

theorem replaced_list {files : List InFile} {E : Str → Bytes → Prop} {l : List (Str × Bytes)} (hE : ∀ q b, E q b ↔ (q, b) ∈ l) (q : Str) (b : Bytes) :
    Replaced exKeep files E q b ↔ (q, b) ∈ replList files l := by
  unfold Replaced replList listOf
  rw [List.mem_append, List.mem_filter, hE]
  constructor
  · rintro (⟨f, hf, hq, rfl⟩ | ⟨h1, h2⟩)
    · exact Or.inl (List.mem_map.2 ⟨f, hf, by rw [rtState.1 hq]⟩)
    · refine Or.inr ⟨h2, ?_⟩
      simp only [decide_eq_true_eq]
      intro hc
      obtain ⟨f, hf, hq⟩ := List.mem_map.1 hc
      exact h1 f hf (rtState.2 hq.symm)
  · rintro (h1 | ⟨h1, h2⟩)
    · obtain ⟨f, hf, he⟩ := List.mem_map.1 h1
      cases he
      exact Or.inl ⟨f, hf, rtState.2 rfl, rfl⟩
    · refine Or.inr ⟨fun f hf hq => ?_, h1⟩
      simp only [decide_eq_true_eq] at h2
      exact h2 (List.mem_map.2 ⟨f, hf, (rtState.1 hq).symm⟩)

/-- ... and after a session that mirrors them or not -/
def afterList (echo : Bool) (files : List InFile) (l : List (Str × Bytes)) : List (Str × Bytes) :=
  if echo then listOf files else replList files l

/-- the session of the cases, mirroring or not -/
def arSession (echo : Bool) (files : List InFile) : Session := { rtSession files with echo := echo }

theorem after_list {echo : Bool} {files : List InFile} {E : Str → Bytes → Prop} {l : List (Str × Bytes)} (hE : ∀ q b, E q b ↔ (q, b) ∈ l)
    (q : Str) (b : Bytes) : After exKeep (arSession echo files) files E q b ↔ (q, b) ∈ afterList echo files l := by
  cases echo with
  | false =>
    refine replaced_list (fun q b => ?_) q b
    rw [← hE]
    exact ⟨fun h => h.2, fun h => ⟨(nomatch ·), h⟩⟩
  | true =>
    have hno : ∀ q b, (StaysIn exKeep (arSession true files) q ∧ E q b) ↔ (q, b) ∈ ([] : List (Str × Bytes)) := by
      intro q b
      refine ⟨fun h => ?_, fun h => by cases h⟩
      exact absurd rfl (h.1 rfl ".".toList rfl).1
    refine (replaced_list hno q b).trans ?_
    unfold replList afterList
    simp

/-- what is asked of the files, on lists -/
structure FitList (echo : Bool) (id : Str) (files : List InFile) (ll : List (List (Str × Bytes))) : Prop where
  names : ∀ f ∈ files, walk 0 (splitOn '/' f.path) = some 1 ∨ walk 0 (splitOn '/' f.path) = some 2
  targets : (targets exKeep { newInv id exArgs.spec exArgs.alg exArgs.contentDir exArgs.fixity with head := verName 0 ((ll.length + 1 : Nat) : Int) }
    (rtSession files).body).Nodup
  paths : (files.map InFile.path).Nodup
  safe : ∀ f ∈ files, ∀ seg ∈ splitOn '/' f.path, seg ≠ [] ∧ seg ≠ ".".toList ∧ seg ≠ "..".toList
  change : ∃ f ∈ files, (f.path, f.data) ∉ ll.getLastD []
  noConflict : ∀ x ∈ afterList echo files (ll.getLastD []), ∀ y ∈ afterList echo files (ll.getLastD []), ¬ (x.1 ++ ['/']) <+: y.1
  noCollision : ∀ x ∈ ll.flatten ++ listOf files, ∀ y ∈ ll.flatten ++ listOf files, rtHash x.2 = rtHash y.2 → x.2 = y.2

/-- the history of the lists -/
def histOf (ll : List (List (Str × Bytes))) : History := ll.map InListing

theorem histOf_last (ll : List (List (Str × Bytes))) (q : Str) (b : Bytes) : (histOf ll).last q b ↔ (q, b) ∈ ll.getLastD [] := by
  unfold histOf History.last
  rw [List.getLastD_eq_getLast?, List.getLastD_eq_getLast?, List.getLast?_map]
  cases ll.getLast? with
  | none => exact ⟨fun h => h.elim, fun h => by cases h⟩
  | some l => exact Iff.rfl

theorem fit_of_list {echo : Bool} {id : Str} {files : List InFile} {ll : List (List (Str × Bytes))} (h : FitList echo id files ll) :
    Fit exKeep rtHash exArgs id true (arSession echo files) files (histOf ll) where
  adds := ((rtSession_adds files).just.echo echo).addsFiles
  names := rt_names (fun f hf => by
    rcases h.names f hf with h | h
    · exact ⟨0, h⟩
    · exact ⟨1, h⟩)
  targets := by
    have := h.targets
    unfold histOf
    rw [List.length_map]
    exact this
  paths := rt_paths h.paths
  safe := fun f hf q hq => by rw [rtState.1 hq]; exact h.safe f hf
  change := by
    obtain ⟨f, hf, hn⟩ := h.change
    exact ⟨f, hf, f.path, rtState.2 rfl, fun hc => hn ((histOf_last _ _ _).1 hc)⟩
  noConflict := by
    rintro x y b c hx hy ⟨t, ht⟩
    have hx := (after_list (histOf_last ll) x b).1 hx
    have hy := (after_list (histOf_last ll) y c).1 hy
    exact h.noConflict _ hx _ hy ⟨t, by rw [ht]; simp⟩
  noCollision := by
    have key : ∀ b, InHistory (histOf ll) files b → ∃ q, (q, b) ∈ ll.flatten ++ listOf files := by
      rintro b (⟨E, hE, q, hq⟩ | ⟨f, hf, rfl⟩)
      · obtain ⟨l, hl, rfl⟩ := List.mem_map.1 hE
        exact ⟨q, List.mem_append_left _ (List.mem_flatten.2 ⟨l, hl, hq⟩)⟩
      · exact ⟨f.path, List.mem_append_right _ (List.mem_map.2 ⟨f, hf, rfl⟩)⟩
    intro b b' h1 h2
    obtain ⟨q, hq⟩ := key b h1
    obtain ⟨q', hq'⟩ := key b' h2
    exact h.noCollision _ hq _ hq'

/-- a content moves onto no path that is there, on lists -/
def PlacedList (files : List InFile) (ll : List (List (Str × Bytes))) : Prop := ∀ f ∈ files,
  (f.path ∉ (ll.getLastD []).map Prod.fst ∧ ∀ l ∈ ll, (f.path, f.data) ∉ l) ∨
  (f.path ∈ (ll.getLastD []).map Prod.fst ∧ ((f.path, f.data) ∈ ll.getLastD [] ∨
    ((∀ l ∈ ll, f.data ∉ l.map Prod.snd) ∧ ∀ g ∈ files, g.data = f.data → g = f)))

theorem deposit_of_list {echo : Bool} {id : Str} {files : List InFile} {ll : List (List (Str × Bytes))} (h : FitList echo id files ll)
    (hp : PlacedList files ll) : Deposit exKeep rtHash exArgs id true (arSession echo files) files (histOf ll) where
  toFit := fit_of_list h
  placed := by
    intro f hf q hq
    rw [rtState.1 hq]
    rcases hp f hf with ⟨h1, h2⟩ | ⟨h1, h2⟩
    · refine Or.inl ⟨fun b hb => h1 (List.mem_map.2 ⟨_, (histOf_last _ _ _).1 hb, rfl⟩), fun E hE he => ?_⟩
      obtain ⟨l, hl, rfl⟩ := List.mem_map.1 hE
      exact h2 l hl he
    · obtain ⟨⟨q', b⟩, hb, rfl⟩ := List.mem_map.1 h1
      refine Or.inr ⟨⟨b, (histOf_last _ _ _).2 hb⟩, fun _ => ?_⟩
      rcases h2 with h2 | ⟨h2, h3⟩
      · exact Or.inl ((histOf_last _ _ _).2 h2)
      · refine Or.inr ⟨fun E hE q' he => ?_, h3⟩
        obtain ⟨l, hl, rfl⟩ := List.mem_map.1 hE
        exact h2 l hl (List.mem_map.2 ⟨_, he, rfl⟩)

theorem histOf_snoc (echo : Bool) (ll : List (List (Str × Bytes))) (files : List InFile) :
    histOf ll ++ [After exKeep (arSession echo files) files (histOf ll).last] = histOf (ll ++ [afterList echo files (ll.getLastD [])]) := by
  unfold histOf
  rw [List.map_append]
  congr 1
  rw [List.map_singleton]
  congr 1
  funext q b
  exact propext (after_list (histOf_last ll) q b)

/-- the add and the update command of the cases -/
noncomputable def arAdd (id : String) (fs : FS) (files : List InFile) : List FsOp × Option GoErr :=
  addCmd exKeep exEnv true (blankInv [] []) flatLayout exArgs fs id.toList (rtSession files)

noncomputable def arUpdate (id : String) (fs : FS) (files : List InFile) : List FsOp × Option GoErr :=
  updateCmd exKeep exEnv true (blankInv [] []) flatLayout exArgs fs id.toList (rtSession files)

/-- the storage root with the object `a` of the three files `rtFiles` -/
noncomputable def arFs1 : FS := applyOps [] (arAdd "a" [] rtFiles).1

theorem ar_fit1 (id : Str) (hid : id = "a".toList ∨ id = "b".toList) : FitList false id rtFiles [] := by
  rcases hid with rfl | rfl <;>
  exact ⟨by decide, by decide, by decide, by decide, by decide, by decide, by decide⟩

theorem ar_placed1 : PlacedList rtFiles [] := by unfold PlacedList; decide

/-- the history of the object after `add` -/
theorem ar_hist1 : ([Replaced exKeep rtFiles (fun _ _ => False)] : History) = histOf [replList rtFiles []] :=
  (congrArg (fun x => [x]) (after_nothing (s := arSession false rtFiles)).symm).trans (histOf_snoc false [] rtFiles)

theorem ar_run1 : ArchiveRun exKeep exEnv true (blankInv [] []) flatLayout exArgs (Deposit exKeep rtHash exArgs) arFs1
    (fun i => if i = "a".toList then [Replaced exKeep rtFiles (fun _ _ => False)] else []) :=
  .add "a".toList (rtSession rtFiles) true rtFiles (.start []) exArgs_good (by decide) (fun _ h => absurd rfl h)
    (deposit_of_list (ar_fit1 _ (Or.inl rfl)) ar_placed1) (by decide)

/-- a session of the cases leaves an object that loads with this inventory -/
theorem ex_valid {fs : FS} {N : Nat} {inv : Inv} {s : Session} (I : Intact exKeep fs 0 N inv) (hs : CleanSession exKeep 0 N inv s) :
    ValidObject exKeep (applyOps fs (session exKeep inv s).obj.trace) 0 (N + 1) (rawOf (stampInv (fun t => t) (session exKeep inv s).obj.inv)) ∧
    Intact exKeep (applyOps fs (session exKeep inv s).obj.trace) 0 (N + 1) (nextInv inv s) := by
  obtain ⟨r, hd, _, hV, hI⟩ := C80_session_valid (codecWorld_codec _) (codecWorld_hex _) exKeep_lower (fun _ => rfl) I hs
  have h1 : exKeep.dec (exKeep.enc (session exKeep inv s).obj.inv) = some (rawOf (stampInv (fun t => t) (session exKeep inv s).obj.inv)) :=
    exDec_enc _ _
  have hd : exKeep.dec (exKeep.enc (session exKeep inv s).obj.inv) = some r := hd
  rw [h1] at hd
  cases hd
  exact ⟨hV, hI⟩

theorem ar_clean1 : CleanSession exKeep 0 0 lifeInv0 (rtSession rtFiles) where
  names := rt_new.names
  rounds := rfl
  distinct := by decide
  completes := by decide
  modified := by decide
  paths := headPaths_of (p := 0) (N := 1) (validInv_of (by decide))
  width := by decide

/-- the inventory of `a` -/
noncomputable abbrev arInv1 : Inv := nextInv lifeInv0 (rtSession rtFiles)

theorem ar_sub1 : subFS arFs1 (rootPath flatLayout "a".toList).1 =
    applyOps (applyOps [] (initObject exArgs [] "a".toList).1) (session exKeep lifeInv0 (rtSession rtFiles)).obj.trace := by
  have h1 : (arAdd "a" [] rtFiles).1 = (initObject exArgs [] "a".toList).1.map (FsOp.lift (rootPath flatLayout "a".toList).1) ++
      (session exKeep lifeInv0 (rtSession rtFiles)).obj.trace.map (FsOp.lift (rootPath flatLayout "a".toList).1) := rfl
  unfold arFs1
  rw [h1, applyOps_append, subFS_applyOps_lift, subFS_applyOps_lift]
  rfl

theorem ar_valid1 : ValidObject exKeep (subFS arFs1 (rootPath flatLayout "a".toList).1) 0 1
    (rawOf (stampInv (fun t => t) (session exKeep lifeInv0 (rtSession rtFiles)).obj.inv)) := by
  rw [ar_sub1]
  exact (ex_valid (intact_new exArgs_good rfl).1 ar_clean1).1

theorem ar_load1 : ∃ f, loadByID exKeep exEnv true (blankInv [] []) flatLayout arFs1 "a".toList = .ok (arInv1, f) :=
  loadByID_valid _ _ _ rfl ar_valid1

/-- an update of `a` where it loads with that inventory -/
theorem ar_update_eq {fs : FS} (hs : subFS fs (rootPath flatLayout "a".toList).1 = subFS arFs1 (rootPath flatLayout "a".toList).1)
    (files : List InFile) : arUpdate "a" fs files = inFolder (rootPath flatLayout "a".toList).1 (session exKeep arInv1 (rtSession files)) := by
  obtain ⟨f, hl⟩ := loadByID_valid (fs := fs) (id := "a".toList) exEnv true (blankInv [] []) (ls := flatLayout) rfl (by rw [hs]; exact ar_valid1)
  have hex : objectExists flatLayout fs "a".toList = .ok true := by
    unfold objectExists
    rw [hs, ar_sub1]
    rfl
  unfold arUpdate updateCmd addObjectByPath
  simp only [hex, hl]
  rfl

/-- a second object beside the first -/
noncomputable def arFs2 : FS := applyOps arFs1 (arAdd "b" arFs1 rtFiles).1

theorem ar_apart : Apart "b".toList "a".toList := by
  refine ⟨by decide, fun r hc => ?_, fun r hc => ?_⟩
  · cases hc
  · cases hc

theorem exArgs_good_b : GoodArgs exArgs "b".toList :=
  ⟨by decide, exArgs_good.version, exArgs_good.spec, exArgs_good.contentDir, exArgs_good.alg⟩

theorem ar_run2 : ArchiveRun exKeep exEnv true (blankInv [] []) flatLayout exArgs (Deposit exKeep rtHash exArgs) arFs2
    (fun i => if i = "b".toList then [Replaced exKeep rtFiles (fun _ _ => False)] else
      if i = "a".toList then [Replaced exKeep rtFiles (fun _ _ => False)] else []) :=
  .add "b".toList (rtSession rtFiles) true rtFiles ar_run1 exArgs_good_b (by decide +kernel)
    (fun id' h => by
      by_cases hid : id' = "a".toList
      · subst hid; exact ar_apart
      · rw [if_neg hid] at h; exact absurd rfl h)
    (deposit_of_list (ar_fit1 _ (Or.inr rfl)) ar_placed1) (by decide +kernel)

/-- an update of `a`: `e` is changed, `f` as it was, `g` new with the content `e` had -/
def arMore : List InFile := [⟨"content".toList, "e".toList, [9, 9, 9, 9]⟩, ⟨"metadata".toList, "f".toList, [1, 2]⟩, ⟨"content".toList, "g".toList, [7]⟩]

theorem ar_fit3 : FitList false "a".toList arMore [replList rtFiles []] :=
  ⟨by decide, by decide, by decide, by decide, by decide, by decide, by decide⟩

theorem ar_placed3 : PlacedList arMore [replList rtFiles []] := by unfold PlacedList; decide

theorem ar_sub2 : subFS arFs2 (rootPath flatLayout "a".toList).1 = subFS arFs1 (rootPath flatLayout "a".toList).1 := by
  have h1 : (arAdd "b" arFs1 rtFiles).1 = ((initObject exArgs [] "b".toList).1 ++ (session exKeep
      (newInv "b".toList exArgs.spec exArgs.alg exArgs.contentDir exArgs.fixity) (rtSession rtFiles)).obj.trace).map
        (FsOp.lift (rootPath flatLayout "b".toList).1) := by
    rfl
  unfold arFs2
  rw [h1]
  exact subFS_outside (outside_lift ar_apart _) _

noncomputable def arFs3 : FS := applyOps arFs2 (arUpdate "a" arFs2 arMore).1

theorem ar_run3 : ∃ H : Str → History, ArchiveRun exKeep exEnv true (blankInv [] []) flatLayout exArgs (Deposit exKeep rtHash exArgs) arFs3 H ∧
    H "a".toList = histOf [[("c/d".toList, [1, 2]), ("e".toList, [7]), ("f".toList, [1, 2])],
      [("e".toList, [9, 9, 9, 9]), ("f".toList, [1, 2]), ("g".toList, [7]), ("c/d".toList, [1, 2])]] := by
  refine ⟨_, .update "a".toList (rtSession arMore) true arMore ar_run2 ?_ ?_ ?_, ?_⟩
  · rw [if_neg (by decide), if_pos rfl]; exact List.cons_ne_nil _ _
  · rw [if_neg (by decide), if_pos rfl, ar_hist1]
    exact deposit_of_list ar_fit3 ar_placed3
  · show (arUpdate "a" arFs2 arMore).2 = none
    rw [ar_update_eq ar_sub2]
    decide
  · simp only [if_true]
    rw [if_neg (by decide), ar_hist1]
    refine (histOf_snoc false _ _).trans ?_
    rfl

/-- the hypotheses of C162 are met: two objects, one of them changed; both its versions are retrieved -/
theorem ar_retrieved : Retrieved exKeep exEnv true (blankInv [] []) flatLayout arFs3 "a".toList
    (histOf [[("c/d".toList, [1, 2]), ("e".toList, [7]), ("f".toList, [1, 2])],
      [("e".toList, [9, 9, 9, 9]), ("f".toList, [1, 2]), ("g".toList, [7]), ("c/d".toList, [1, 2])]]) := by
  obtain ⟨H, hr, hH⟩ := ar_run3
  rw [← hH]
  exact C162_archive_partial (codecWorld_codec _) (codecWorld_hex _) exKeep_lower (fun _ => rfl) (a := exArgs) rtHash_eq hr
    (by rw [hH]; exact List.cons_ne_nil _ _)

/-- an update that gives `e` the content of `f` -/
def arMove : List InFile := [⟨"content".toList, "e".toList, [1, 2]⟩]

theorem ar_fitMove : FitList false "a".toList arMove [replList rtFiles []] :=
  ⟨by decide, by decide, by decide, by decide, by decide, by decide, by decide⟩

noncomputable def arFsMove : FS := applyOps arFs1 (arUpdate "a" arFs1 arMove).1

theorem ar_cleanMove : CleanSession exKeep 0 1 arInv1 (rtSession arMove) where
  names := (fit_of_list ar_fitMove).names
  rounds := rfl
  distinct := by decide
  completes := by decide
  modified := by decide
  paths := headPaths_of (p := 0) (N := 2) (validInv_of (by decide))
  width := by decide

theorem ar_subMove : subFS arFsMove (rootPath flatLayout "a".toList).1 =
    applyOps (subFS arFs1 (rootPath flatLayout "a".toList).1) (session exKeep arInv1 (rtSession arMove)).obj.trace := by
  unfold arFsMove
  rw [ar_update_eq rfl]
  exact subFS_applyOps_lift _ _ _

theorem ar_okMove : (arUpdate "a" arFs1 arMove).2 = none := by
  rw [ar_update_eq rfl]
  decide

theorem ar_loadMove : ∃ f, loadByID exKeep exEnv true (blankInv [] []) flatLayout arFsMove "a".toList =
    .ok (nextInv arInv1 (rtSession arMove), f) := by
  refine loadByID_valid _ _ _ rfl (N := 2) (p := 0) ?_
  rw [ar_subMove]
  refine (ex_valid ?_ ar_cleanMove).1
  rw [ar_sub1]
  exact (ex_valid (intact_new exArgs_good rfl).1 ar_clean1).2

/-- what `e` comes out as -/
theorem ar_stale : (loadByID exKeep exEnv true (blankInv [] []) flatLayout arFsMove "a".toList).toOption.map (fun x =>
    mget (applyOps [] (extract exKeep x.1 (subFS arFsMove (rootPath flatLayout "a".toList).1) rtXp "latest".toList false).trace) "e".toList) =
    some (some [7]) := by
  obtain ⟨f, hf⟩ := ar_loadMove
  rw [hf, ar_subMove, ar_sub1]
  simp only [Except.toOption, Option.map]
  have : mget (applyOps [] (extract exKeep (nextInv arInv1 (rtSession arMove))
      (applyOps (applyOps (applyOps [] (initObject exArgs [] "a".toList).1) (session exKeep lifeInv0 (rtSession rtFiles)).obj.trace)
        (session exKeep arInv1 (rtSession arMove)).obj.trace) rtXp "latest".toList false).trace) "e".toList = some [7] := by decide +kernel
  rw [this]

/-- **C162 fails** if a content moves onto a path that is there: the object gives out the old content. -/
theorem C162_full_fails : ¬ C162_full := by
  intro hf
  have run : ArchiveRun exKeep exEnv true (blankInv [] []) flatLayout exArgs (Fit exKeep rtHash exArgs) arFsMove _ :=
    .update "a".toList (rtSession arMove) true arMove
      (.add "a".toList (rtSession rtFiles) true rtFiles (.start []) exArgs_good (by decide) (fun _ h => absurd rfl h)
        (fit_of_list (ll := []) (ar_fit1 _ (Or.inl rfl))) (by decide))
      (by simp only [if_true]; exact List.cons_ne_nil _ _)
      (by simp only [if_true]; rw [ar_hist1]; exact fit_of_list ar_fitMove) ar_okMove
  obtain ⟨i, f, r, h1, _, _, _, h2⟩ := hf exKeep exEnv true (blankInv [] []) flatLayout exArgs rtHash arFsMove _ "a".toList (codecWorld_codec _)
    (codecWorld_hex _) exKeep_lower (fun _ => rfl) rtHash_eq run (by simp only [if_true]; exact List.append_ne_nil_of_right_ne_nil _ (List.cons_ne_nil _ _))
  have h3 := ((h2 rtXp false (rtXp_apart _)).2 "e".toList [1, 2] (fun h => by cases h)).2 ⟨"e".toList, rfl, by
    simp only [if_true, History.last, List.getLastD_concat]
    exact Or.inl ⟨_, List.mem_singleton.2 rfl, rtState.2 rfl, rfl⟩⟩
  have h4 := ar_stale
  rw [h1] at h4
  simp only [Except.toOption, Option.map] at h4
  rw [h3] at h4
  revert h4; decide

/-- **C161 fails** for the same update. -/
theorem C161_full_fails : ¬ C161_full := by
  intro hf
  have hh := (archiveRun_holds (codecWorld_codec _) (codecWorld_hex _) exKeep_lower (fun _ => rfl) (a := exArgs) rtHash_eq ar_run1).1 "a".toList
    (by rw [if_pos rfl]; exact List.cons_ne_nil _ _)
  rw [if_pos rfl, ar_hist1] at hh
  obtain ⟨hroot, r, O, A⟩ := hh
  obtain ⟨f0, hl⟩ := loadByID_valid exEnv true (blankInv [] []) hroot O
  have F := fit_of_list ar_fitMove
  obtain ⟨t1, t2, t3, t4⟩ := F.update A.toInArchive
  obtain ⟨i, f, h1, _, _, h2⟩ := hf exKeep exEnv true (blankInv [] []) flatLayout exArgs arFs1 "a".toList (rtSession arMove) true arMove rtHash _ f0 _
    rtXp false (codecWorld_codec _) (codecWorld_hex _) exKeep_lower (fun _ => rfl) hl A.id A.intact A.clear A.hash F.adds ar_okMove
    F.names t1 F.paths F.safe t2 t3 t4 (rtXp_apart _)
  have h3 := (h2 "e".toList [1, 2] (fun h => by cases h)).2 ⟨"e".toList, rfl, Or.inl ⟨_, List.mem_singleton.2 rfl, rtState.2 rfl, rfl⟩⟩
  have h4 := ar_stale
  have h1 : loadByID exKeep exEnv true (blankInv [] []) flatLayout arFsMove "a".toList = .ok (i, f) := h1
  rw [h1] at h4
  simp only [Except.toOption, Option.map] at h4
  have h3 : mget (applyOps [] (extract exKeep i (subFS arFsMove (rootPath flatLayout "a".toList).1) rtXp "latest".toList false).trace)
    "e".toList = some [1, 2] := h3
  rw [h3] at h4
  revert h4; decide

/-- the hypotheses of C161 are met: the update of `a` in the root with one object -/
theorem ar_update : ∃ inv f0, loadByID exKeep exEnv true (blankInv [] []) flatLayout arFs1 "a".toList = .ok (inv, f0) ∧
    ComesOut exKeep exEnv true (blankInv [] []) flatLayout (applyOps arFs1 (arUpdate "a" arFs1 arMore).1) "a".toList rtXp true
      (Replaced exKeep arMore (VersionContent (subFS arFs1 (rootPath flatLayout "a".toList).1) inv inv.head)) := by
  have hh := (archiveRun_holds (codecWorld_codec _) (codecWorld_hex _) exKeep_lower (fun _ => rfl) (a := exArgs) rtHash_eq ar_run1).1 "a".toList
    (by rw [if_pos rfl]; exact List.cons_ne_nil _ _)
  rw [if_pos rfl, ar_hist1] at hh
  obtain ⟨hroot, r, O, A⟩ := hh
  obtain ⟨f0, hl⟩ := loadByID_valid exEnv true (blankInv [] []) hroot O
  refine ⟨_, f0, hl, ?_⟩
  rw [← after_plain (s := rtSession arMore) rfl]
  exact (C161_update_partial (codecWorld_codec _) (codecWorld_hex _) exKeep_lower (fun _ => rfl) hl A.id A.intact A.clear A.hash
    (rtSession_adds arMore).addsFiles
    (show (arUpdate "a" arFs1 arMore).2 = none by rw [ar_update_eq rfl]; decide) ((deposit_of_list ar_fit3 ar_placed3).good A.toInArchive) (fun h0 => absurd h0 (Nat.lt_irrefl 0)) (rtXp_apart _) true).1

end Gocfl
