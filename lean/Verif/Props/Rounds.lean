import Verif.Props.Repeat
import Verif.Props.FollowUp
import Verif.Props.CleanVersion

/-!
# C165: sessions with automated versions

An extension may ask for further versions (`NeedNewVersion`, the migration extension does); `EndUpdate` then opens the
next version and runs the extension.  The root inventory is written once, at the end.
-/

namespace Gocfl

/-! ## The same calls on an object with a longer trace -/

/-- `o'` is `o` with the changes `pre` made before; neither records what the user names (`echo`) -/
structure Shift (pre : List FsOp) (o o' : Obj) : Prop where
  inv : o'.inv = o.inv
  echo : o.echo = false
  echo' : o'.echo = false
  trace : o'.trace = pre ++ o.trace

structure OutShift (pre : List FsOp) (x x' : Out) : Prop where
  obj : Shift pre x.obj x'.obj
  err : x'.err = x.err

theorem OutShift.andThen {pre : List FsOp} {x x' : Out} {f f' : Obj → Out} (h : OutShift pre x x')
    (hf : ∀ o o', Shift pre o o' → OutShift pre (f o) (f' o')) : OutShift pre (x.andThen f) (x'.andThen f') := by
  cases hx : x.err with
  | none =>
    rw [andThen_none hx, andThen_none (h.err.trans hx)]
    exact hf _ _ h.obj
  | some e =>
    rw [andThen_some hx, andThen_some (h.err.trans hx)]
    exact h

section
variable {pre : List FsOp} {o o' : Obj} {w : World}

theorem Shift.same (h : Shift pre o o') (e : Option GoErr) : OutShift pre ⟨o, e⟩ ⟨o', e⟩ := ⟨h, rfl⟩

theorem Shift.files (h : Shift pre o o') (a b : List Str) :
    Shift pre { o with updateFiles := a } { o' with updateFiles := b } := ⟨h.inv, h.echo, h.echo', h.trace⟩

theorem Shift.write (h : Shift pre o o') (t : List FsOp) : Shift pre (o.write t) (o'.write t) :=
  ⟨h.inv, h.echo, h.echo', by show o'.trace ++ t = pre ++ (o.trace ++ t); rw [h.trace, List.append_assoc]⟩

theorem Shift.withInv (h : Shift pre o o') (r : Res Inv) : OutShift pre (withInv o r) (withInv o' r) := by
  cases r with
  | error e => exact h.same _
  | ok i => exact ⟨⟨rfl, h.echo, h.echo', h.trace⟩, rfl⟩

theorem Shift.addReader (h : Shift pre o o') (names : List Str) (mp : Str) (data : Bytes) :
    OutShift pre (addReader w o names mp data) (addReader w o' names mp data) := by
  unfold Gocfl.addReader
  rcases o with ⟨i, u, e, t⟩; rcases o' with ⟨i', u', e', t'⟩; obtain rfl : i' = i := h.inv
  simp only
  cases checksums w (digestAlgs i') data with
  | none => exact ((h.files _ _).write _).same _
  | some cs => exact ((h.files _ _).write _).withInv _

theorem Shift.addChecked (h : Shift pre o o') (names : List Str) (mp np d : Str) (data : Bytes) :
    OutShift pre (addChecked w o names mp np d data) (addChecked w o' names mp np d data) := by
  unfold Gocfl.addChecked
  rcases o with ⟨i, u, e, t⟩; rcases o' with ⟨i', u', e', t'⟩; obtain rfl : i' = i := h.inv
  cases alreadyExists i' np d with
  | error e => exact h.same _
  | ok b =>
    cases b with
    | true => exact h.same _
    | false =>
      simp only
      by_cases hg : getDuplicates i' d ≠ []
      · rw [if_pos hg, if_pos hg]; exact h.withInv _
      · rw [if_neg hg, if_neg hg]; exact h.addReader _ _ _

theorem Shift.ifExists (h : Shift pre o o') (p d : Str) (f : Inv → Res Inv) :
    OutShift pre (objIfExists o p d f) (objIfExists o' p d f) := by
  unfold objIfExists
  rcases o with ⟨i, u, e, t⟩; rcases o' with ⟨i', u', e', t'⟩; obtain rfl : i' = i := h.inv
  by_cases hw : i'.writeable = false
  · rw [if_pos hw, if_pos hw]; exact h.same _
  · rw [if_neg hw, if_neg hw]
    cases alreadyExists i' p d with
    | error e => exact h.same _
    | ok b =>
      cases b with
      | false => exact h.same _
      | true => exact h.withInv _

theorem Shift.call (h : Shift pre o o') (c : Call) : OutShift pre (runCall w o c) (runCall w o' c) := by
  cases c with
  | add p a d c =>
    unfold runCall objAdd
    simp only
    rcases o with ⟨i, u, e, t⟩; rcases o' with ⟨i', u', e', t'⟩; obtain rfl : i' = i := h.inv
    by_cases hw : i'.writeable = false
    · rw [if_pos hw, if_pos hw]; exact h.same _
    · rw [if_neg hw, if_neg hw]
      cases buildNames w i' [p] a with
      | error e => exact h.same _
      | ok x =>
        obtain ⟨names, mp⟩ := x
        simp only
        cases c with
        | false => exact (h.files _ _).addReader _ _ _
        | true =>
          simp only [if_true]
          cases w.hash i'.digestAlg with
          | none => exact (h.files _ _).same _
          | some f => exact (h.files _ _).addChecked _ _ _ _ _
  | reader fs a d =>
    unfold runCall objAddReader
    simp only
    rcases o with ⟨i, u, e, t⟩; rcases o' with ⟨i', u', e', t'⟩; obtain rfl : i' = i := h.inv
    by_cases hf : fs = []
    · rw [if_pos hf, if_pos hf]; exact h.same _
    · rw [if_neg hf, if_neg hf]
      by_cases hw : i'.writeable = false
      · rw [if_pos hw, if_pos hw]; exact h.same _
      · rw [if_neg hw, if_neg hw]
        cases buildNames w i' fs a with
        | error e => exact h.same _
        | ok x => exact h.addReader _ _ _
  | delete p d => exact h.ifExists p d (fun i => deleteFile i p)
  | rename a b d => exact h.ifExists a d (fun i => renameFile i a b)
  | beginArea => exact (h.files _ _).same _
  | endArea =>
    unfold runCall
    simp only [h.echo, h.echo', Bool.false_eq_true, if_false]
    exact (h.files _ _).same _
  | ext n d => exact (h.write _).same _
theorem Shift.calls (h : Shift pre o o') (cs : List Call) : OutShift pre (runCalls w o cs) (runCalls w o' cs) := by
  induction cs generalizing o o' with
  | nil => exact h.same _
  | cons c cs ih => exact (h.call c).andThen (fun _ _ h => ih h)

theorem Shift.store (h : Shift pre o o') (v r : Bool) :
    OutShift pre (storeInventory w o v r) (storeInventory w o' v r) := by
  unfold storeInventory
  rcases o with ⟨i, u, e, t⟩; rcases o' with ⟨i', u', e', t'⟩; obtain rfl : i' = i := h.inv
  by_cases hw : i'.writeable = false
  · rw [if_pos hw, if_pos hw]; exact h.same _
  · rw [if_neg hw, if_neg hw]
    cases w.hash i'.digestAlg with
    | none => exact h.same _
    | some f => exact (h.write _).same _

theorem shift_start (hi : o'.inv = o.inv) (ht : o'.trace = pre ++ o.trace) (v : VInfo) (before : List Call) :
    OutShift pre (startUpdate w o v false before) (startUpdate w o' v false before) := by
  unfold startUpdate
  rcases o with ⟨i, u, e, t⟩; rcases o' with ⟨i', u', e', t'⟩; obtain rfl : i' = i := hi
  have h' : Shift pre ⟨i', u, false, t⟩ ⟨i', u', false, t'⟩ := ⟨rfl, rfl, rfl, ht⟩
  exact (h'.withInv _).andThen (fun _ _ h => h.calls _)

theorem Shift.endUpdate (h : Shift pre o o') (after : List Call) (rs : List Round) :
    OutShift pre (endUpdate w o after rs) (endUpdate w o' after rs) := by
  induction rs generalizing o o' after with
  | nil =>
    unfold Gocfl.endUpdate
    rcases o with ⟨i, u, e, t⟩; rcases o' with ⟨i', u', e', t'⟩; obtain rfl : i' = i := h.inv
    by_cases hw : i'.writeable = false
    · rw [if_pos hw, if_pos hw]; exact h.same _
    · rw [if_neg hw, if_neg hw]
      by_cases hm : i'.modified = false
      · rw [if_pos hm, if_pos hm]; exact h.same _
      · rw [if_neg hm, if_neg hm]
        obtain rfl : e = false := h.echo
        obtain rfl : e' = false := h.echo'
        simp only [Bool.false_eq_true, if_false, andThen_ok]
        refine (h.calls _).andThen (fun a a' h => ?_)
        rw [h.inv]
        exact (h.withInv _).andThen (fun a a' h => h.store _ _)
  | cons r rs ih =>
    unfold Gocfl.endUpdate
    rcases o with ⟨i, u, e, t⟩; rcases o' with ⟨i', u', e', t'⟩; obtain rfl : i' = i := h.inv
    by_cases hw : i'.writeable = false
    · rw [if_pos hw, if_pos hw]; exact h.same _
    · rw [if_neg hw, if_neg hw]
      by_cases hm : i'.modified = false
      · rw [if_pos hm, if_pos hm]; exact h.same _
      · rw [if_neg hm, if_neg hm]
        obtain rfl : e = false := h.echo
        obtain rfl : e' = false := h.echo'
        simp only [Bool.false_eq_true, if_false, andThen_ok]
        refine (h.calls _).andThen (fun a a' h => ?_)
        rw [h.inv]
        refine (h.withInv _).andThen (fun a a' h => (h.store _ _).andThen (fun a a' h => (shift_start h.inv h.trace _ _).andThen
          (fun a a' h => (h.calls _).andThen (fun a a' h => ih h _))))

theorem Shift.close (h : Shift pre o o') (exts : List (Str × Bytes)) :
    OutShift pre (closeObj w o exts) (closeObj w o' exts) := by
  unfold closeObj
  rcases o with ⟨i, u, e, t⟩; rcases o' with ⟨i', u', e', t'⟩; obtain rfl : i' = i := h.inv
  by_cases hw : i'.writeable = false
  · rw [if_pos hw, if_pos hw]; exact h.same _
  · rw [if_neg hw, if_neg hw]
    by_cases hm : i'.modified = false
    · rw [if_pos hm, if_pos hm]; exact h.same _
    · rw [if_neg hm, if_neg hm]
      exact (h.withInv _).andThen (fun a a' h => (h.store _ _).andThen (fun a a' h => (h.write _).same _))

end

/-! ## The versions of a session, one at a time -/

/-- the session without the versions extensions ask for -/
def Session.first (s : Session) : Session := { s with rounds := [], exts := [] }

/-- the version an extension asks for, and those after it, as a session -/
def Session.follow (s : Session) (r : Round) (rs : List Round) : Session :=
  ⟨r.info, false, r.before, r.body, r.after, rs, s.exts⟩

/-- what `EndUpdate` does with one version -/
def stage (w : World) (o : Obj) (after : List Call) : Out :=
  (if o.echo then objEcho w o else ok o).andThen fun o =>
  (runCalls w o after).andThen fun o =>
  (withInv o (clean o.inv)).andThen fun o => storeInventory w o true false

theorem endUpdate_stage {w : World} {o : Obj} (after : List Call) (hw : o.inv.writeable = true)
    (hm : o.inv.modified = true) : endUpdate w o after [] = stage w o after := by
  unfold endUpdate stage
  rw [if_neg (by rw [hw]; simp), if_neg (by rw [hm]; simp)]

theorem endUpdate_stages {w : World} {o : Obj} (after : List Call) (r : Round) (rs : List Round)
    (hw : o.inv.writeable = true) (hm : o.inv.modified = true) :
    endUpdate w o after (r :: rs) = (stage w o after).andThen fun o =>
      (startUpdate w o r.info false r.before).andThen fun o =>
      (runCalls w o r.body).andThen fun o => endUpdate w o r.after rs := by
  conv_lhs => unfold endUpdate
  unfold stage
  rw [if_neg (by rw [hw]; simp), if_neg (by rw [hm]; simp)]
  simp only [andThen_assoc]

theorem endUpdate_idle {w : World} {o : Obj} (after : List Call) (h : o.inv.writeable = false ∨ o.inv.modified = false) :
    endUpdate w o after [] = ok o := by
  unfold endUpdate
  rcases h with h | h
  · rw [if_pos h]
  · by_cases hw : o.inv.writeable = false
    · rw [if_pos hw]
    · rw [if_neg hw, if_pos h]

theorem stage_writeable {w : World} {o : Obj} {after : List Call} (h : (stage w o after).err = none) :
    (stage w o after).obj.inv.writeable = true := by
  unfold stage at h ⊢
  obtain ⟨h1, h2⟩ := andThen_split h
  rw [andThen_none h1]
  obtain ⟨h3, h4⟩ := andThen_split h2
  rw [andThen_none h3]
  obtain ⟨h5, h6⟩ := andThen_split h4
  rw [andThen_none h5]
  rw [storeInventory_trace.1]
  generalize (withInv (runCalls w (if o.echo = true then objEcho w o else ok o).obj after).obj
    (clean (runCalls w (if o.echo = true then objEcho w o else ok o).obj after).obj.inv)).obj = o3 at h6 ⊢
  unfold storeInventory at h6
  split at h6
  · cases h6
  · rename_i hw; exact not_false_iff hw

/-- A session with a version an extension asks for is the session without, its root inventory not written, and then a
session that makes this version. -/
theorem session_rounds {w : World} {inv : Inv} {n : Nat} (hwf : WF inv n) {s : Session} {r : Round} {rs : List Round}
    (hr : s.rounds = r :: rs)
    (he : (session w inv s.first).err = none) (hm : (session w inv s.first).obj.inv.modified = true) :
    ∃ t f, (session w inv s.first).obj.trace = t ++ rootWrites w f (session w inv s.first).obj.inv ∧
      OutShift t (session w (session w inv s.first).obj.inv (s.follow r rs)) (session w inv s) := by
  have e1 : session w inv s.first = ((startUpdate w ⟨inv, [], false, []⟩ s.info s.echo s.before).andThen fun o =>
      runCalls w o s.body).andThen fun o => (endUpdate w o s.after []).andThen fun o => closeObj w o [] := by
    unfold session sessionOpen
    simp only [andThen_assoc]
    rfl
  have e2 : session w inv s = ((startUpdate w ⟨inv, [], false, []⟩ s.info s.echo s.before).andThen fun o =>
      runCalls w o s.body).andThen fun o => (endUpdate w o s.after (r :: rs)).andThen fun o => closeObj w o s.exts := by
    unfold session sessionOpen
    simp only [andThen_assoc, hr]
  rw [e2]
  rw [e1] at he hm ⊢
  obtain ⟨h1, h2⟩ := andThen_split he
  have hwr : ((startUpdate w ⟨inv, [], false, []⟩ s.info s.echo s.before).andThen fun o =>
      runCalls w o s.body).obj.inv.writeable = true := by
    obtain ⟨g1, _⟩ := andThen_split h1
    rw [andThen_none g1]
    obtain ⟨k1, k2, _⟩ := startUpdate_wf (o := ⟨inv, [], false, []⟩) hwf g1
    exact (calls_wf k1 _).2.1.trans k2
  generalize ((startUpdate w ⟨inv, [], false, []⟩ s.info s.echo s.before).andThen fun o => runCalls w o s.body) = x at *
  rw [andThen_none h1] at hm ⊢
  rw [andThen_none h1]
  generalize x.obj = o at *
  have hmo : o.inv.modified = true := by
    cases h : o.inv.modified with
    | true => rfl
    | false =>
      exfalso
      rw [endUpdate_idle _ (Or.inr h), andThen_ok] at hm
      rcases closeObj_cases w o [] with ⟨h3, _⟩ | ⟨_, h4, _⟩ | ⟨_, h4, _⟩
      · rw [h3] at hm
        exact absurd (hm.symm.trans h) (by simp)
      · rw [h] at h4; cases h4
      · rw [h] at h4; cases h4
  rw [endUpdate_stages _ _ _ hwr hmo]
  rw [endUpdate_stage _ hwr hmo] at h2 hm ⊢
  obtain ⟨h3, h4⟩ := andThen_split h2
  rw [andThen_none h3] at hm ⊢
  rw [andThen_assoc, andThen_none h3]
  have hw2 := stage_writeable h3
  generalize (stage w o s.after).obj = o2 at *
  rcases closeObj_cases w o2 [] with ⟨h5, h6⟩ | ⟨_, _, _, _, h5⟩ | ⟨_, _, f, _, h5⟩
  · exfalso
    rcases h6 with h6 | h6
    · exact absurd (hw2.symm.trans h6) (by simp)
    · rw [h5] at hm
      exact absurd (hm.symm.trans h6) (by simp)
  · exact absurd h4 h5
  · rw [h5]
    refine ⟨o2.trace, f, by show o2.trace ++ (_ ++ []) = _; rw [List.append_nil]; rfl, ?_⟩
    show OutShift o2.trace (session w o2.inv (s.follow r rs)) _
    unfold session sessionOpen
    have hst : OutShift o2.trace (startUpdate w ⟨o2.inv, [], false, []⟩ r.info false r.before)
        (startUpdate w o2 r.info false r.before) := shift_start (o := ⟨o2.inv, [], false, []⟩) (o' := o2) rfl (List.append_nil o2.trace).symm _ _
    simp only [andThen_assoc]
    exact hst.andThen (fun _ _ h => (h.calls _).andThen (fun _ _ h => (h.endUpdate _ _).andThen (fun _ _ h => h.close _)))

/-! ## Folders with the same files -/

theorem DiskMatches.congr {w : World} {fs fs' : FS} {inv : Inv} (h : DiskMatches w fs inv) (he : ∀ x, mget fs' x = mget fs x) :
    DiskMatches w fs' inv := by
  refine ⟨fun d m c h1 h2 => ?_, fun v ver q b h1 h2 => ?_, fun a mm d m c h1 h2 h3 => ?_, h.algs⟩
  · rw [he]; exact h.content d m c h1 h2
  · rw [he] at h2; exact h.complete v ver q b h1 h2
  · rw [he]; exact h.fixity a mm d m c h1 h2 h3

theorem StoredInv.congr {w : World} {fs fs' : FS} {r : RawInv} (h : StoredInv w fs r) (he : ∀ x, mget fs' x = mget fs x) :
    StoredInv w fs' r := by
  unfold StoredInv at h ⊢
  simp only [he]
  exact h

theorem ValidObject.congr {w : World} {fs fs' : FS} {p N : Nat} {r : RawInv} (h : ValidObject w fs p N r)
    (he : ∀ x, mget fs' x = mget fs x) (hn : (mkeys fs').Nodup) : ValidObject w fs' p N r := by
  refine ⟨hn, h.stored.congr he, h.decoded, h.inv, h.alg, h.files.congr he, ?_, ?_, ?_, ?_, ?_, ?_, ?_⟩
  · simp only [he]; exact h.decl
  · simp only [he]; exact h.dirs
  · simp only [he]; exact h.folders
  · simp only [he]; exact h.versionFiles
  · intro n b h0 hn hb
    rw [he] at hb
    obtain ⟨i, i1, i2, i3, i4, i5⟩ := h.inventories n b h0 hn hb
    exact ⟨i, i1.congr (fun x => by rw [mget_subFS, mget_subFS]; exact he _), i2, i3, i4, i5.congr he⟩
  · simp only [he]; exact h.last
  · simp only [he]; exact h.specs

theorem Intact.congr {w : World} {fs fs' : FS} {p N : Nat} {inv : Inv} (h : Intact w fs p N inv)
    (he : ∀ x, mget fs' x = mget fs x) (hn : (mkeys fs').Nodup) : Intact w fs' p N inv := by
  refine ⟨h.ok, h.files.congr he, hn, ?_, ?_, ?_, ?_, ?_, ?_, ?_, h.times⟩
  · simp only [he]; exact h.decl
  · simp only [he]; exact h.dirs
  · simp only [he]; exact h.folders
  · simp only [he]; exact h.versionFiles
  · intro n b h0 hn hb
    rw [he] at hb
    obtain ⟨i, i1, i2, i3, i4, i5⟩ := h.inventories n b h0 hn hb
    exact ⟨i, i1.congr (fun x => by rw [mget_subFS, mget_subFS]; exact he _), i2, i3, i4, i5.congr he⟩
  · simp only [he]; exact h.specs
  · simp only [he]; exact h.specLe

/-! ## The inventory in memory after a session -/

/-- After a session the inventory in memory, not only the one read back, fits the folder. -/
theorem session_staged {w : World} (hc : Codec w) (hx : HexHash w) (hL : LowerHash w)
    (ht : ∀ t, w.time (w.time t) = w.time t) {fs : FS} {p N : Nat} {inv : Inv} {s : Session} (h : Staged w fs p N inv)
    (hs : CleanSession w p N inv s) :
    Staged w (applyOps fs (session w inv s).obj.trace) p (N + 1) (session w inv s).obj.inv := by
  obtain ⟨r, _, R, _, I⟩ := staged_session hc hx hL ht h hs
  obtain ⟨i, o, f, D⟩ := deposited hL h.ok hs.names hs.rounds hs.completes hs.modified
  have hok : InvOk p (N + 1) (session w inv s).obj.inv := by
    have hH := hs.paths
    rw [D.result] at hH ⊢
    exact D.ok h.ok hH
  generalize applyOps fs (session w inv s).obj.trace = fs' at *
  generalize (session w inv s).obj.inv = a at *
  obtain ⟨e1, e2, e3, e4, e5⟩ := R.scalars
  have halg : (loadedInv p r).digestAlg = a.digestAlg := e3.symm
  have hcd := R.contentDir p
  have hver : ∀ {v ver}, (v, ver) ∈ a.versions → ∃ ver', (v, ver') ∈ (loadedInv p r).versions ∧
      SameVersion { ver with created := w.time ver.created } ver' := fun h => R.version _ _ h
  have hf := I.files
  refine ⟨hok, ⟨?_, ?_, ?_, ?_⟩, I.nodup, ?_, ?_, ?_, ?_, ?_, I.specs, ?_⟩
  · intro d m c h1 h2
    rw [← halg]
    exact hf.content d m c (R.manifest.mem_iff.1 h1) h2
  · intro v ver q b h1 h2
    obtain ⟨ver', h3, _⟩ := hver h1
    rw [← hcd] at h2 ⊢
    obtain ⟨d, m, h4, h5⟩ := hf.complete v ver' q b h3 h2
    exact ⟨d, m, R.manifest.mem_iff.2 h4, h5⟩
  · intro x mm d m c h1 h2 h3
    obtain ⟨m', h4, h5⟩ := R.fixity x mm h1
    obtain ⟨⟨d', n', k1, k2⟩, k3⟩ := hf.fixity x m' d m c h4 (h5.mem_iff.1 h2) h3
    exact ⟨⟨d', n', R.manifest.mem_iff.2 k1, k2⟩, k3⟩
  · intro x hx'
    exact hf.algs x (R.fixityKeys.mem_iff.1 hx')
  · rw [← halg]; exact I.decl
  · intro d q b h1 h2
    rcases I.dirs d q b h1 h2 with h | h
    · exact Or.inl (R.keys.mem_iff.2 h)
    · exact Or.inr h
  · intro v ver h1
    obtain ⟨ver', h3, _⟩ := hver h1
    exact I.folders v ver' h3
  · intro v ver x b h1 h2
    obtain ⟨ver', h3, _⟩ := hver h1
    rw [← halg, ← hcd]
    exact I.versionFiles v ver' x b h3 h2
  · intro n b h0 hn hb
    obtain ⟨i, i1, i2, i3, i4, i5⟩ := I.inventories n b h0 hn hb
    refine ⟨i, i1, i2, i3, ⟨i4.id.trans e1.symm, i4.contentDirectory.trans e5.symm, i4.alg.trans e3.symm, ?_, ?_, ?_⟩, i5⟩
    · intro u x y hx hy
      obtain ⟨c, hc', rfl⟩ := mem_stampInv.1 hy
      obtain ⟨z, hz, k1, k2, k3, k4, _⟩ := hver hc'
      obtain ⟨g1, g2, g3, g4⟩ := i4.metadata u x z hx hz
      exact ⟨g1.trans k1.symm, g2.trans k2.symm, g3.trans k3.symm, g4.trans k4.symm⟩
    · intro u x y hx hy
      obtain ⟨c, hc', rfl⟩ := mem_stampInv.1 hy
      obtain ⟨z, hz, _, _, _, _, k⟩ := hver hc'
      exact (i4.state u x z hx hz).trans' (sameMapping_perm k.symm)
    · intro u x y hx hy d
      obtain ⟨c, hc', rfl⟩ := mem_stampInv.1 hy
      obtain ⟨z, hz, _, _, _, _, k⟩ := hver hc'
      rw [i4.digests u x z hx hz d]
      exact (k.map Prod.fst).mem_iff.symm
  · intro n b i h0 hn hb hi
    rw [e2]
    exact I.specLe n b i h0 hn hb hi

/-! ## C165 -/

/-- A session in which extensions ask for the versions `rs`, each version taken by itself is as C80 assumes it. -/
def CleanRun (w : World) (p : Nat) : List Round → Nat → Inv → Session → Prop
  | [], N, inv, s => CleanSession w p N inv s
  | r :: rs, N, inv, s => s.rounds = r :: rs ∧ CleanSession w p N inv s.first ∧
      CleanRun w p rs (N + 1) (session w inv s.first).obj.inv (s.follow r rs)

/-- the content of a file written anew does not depend on what was there -/
theorem mget_rewritten (fs fs' : FS) (t1 t2 : List FsOp) (x : Str) (b : Bytes) :
    mget (applyOps fs (t1 ++ (writeFile x b ++ t2))) x = mget (applyOps fs' (t1 ++ (writeFile x b ++ t2))) x := by
  simp only [applyOps_append]
  refine mget_applyOps_congr t2 ?_
  rw [mget_writeFile, mget_writeFile]

/-- what the session writes last -/
def EndsWithRoot (w : World) (alg : Str) (t : List FsOp) : Prop :=
  ∃ t1 f i t2, t = t1 ++ (rootWrites w f i ++ t2) ∧ i.digestAlg = alg

theorem EndsWithRoot.forget {w : World} {alg : Str} {t : List FsOp} (h : EndsWithRoot w alg t) (fs : FS) {f : Bytes → Str}
    {i : Inv} (ha : i.digestAlg = alg) (x : Str) :
    mget (applyOps fs t) x = mget (applyOps fs (rootWrites w f i ++ t)) x := by
  obtain ⟨t1, g, j, t2, rfl, hj⟩ := h
  by_cases h1 : x = rootInvPath
  · subst h1
    rw [applyOps_append (t := rootWrites w f i)]
    unfold rootWrites
    rw [List.append_assoc]
    exact mget_rewritten _ _ _ _ _ _
  · by_cases h2 : x = rootSidecarPath alg
    · subst h2
      rw [applyOps_append (t := rootWrites w f i)]
      unfold rootWrites
      rw [hj, List.append_assoc, ← List.append_assoc t1]
      exact mget_rewritten _ _ _ _ _ _
    · rw [applyOps_append (t := rootWrites w f i)]
      refine mget_applyOps_congr _ (Eq.symm (mget_applyOps_ne (fun op hop he => ?_)))
      unfold rootWrites writeFile at hop
      simp only [List.cons_append, List.nil_append, List.mem_cons, List.not_mem_nil, or_false] at hop
      rcases hop with rfl | rfl | rfl | rfl
      · exact h1 he.symm
      · exact h1 he.symm
      · exact h2 (he.symm.trans (by rw [← ha]; rfl))
      · exact h2 (he.symm.trans (by rw [← ha]; rfl))

theorem staged_run {w : World} (hc : Codec w) (hx : HexHash w) (hL : LowerHash w)
    (ht : ∀ t, w.time (w.time t) = w.time t) {p : Nat} {rs : List Round} {fs : FS} {N : Nat} {inv : Inv} {s : Session}
    (h : Staged w fs p N inv) (hs : CleanRun w p rs N inv s) :
    (session w inv s).err = none ∧ (session w inv s).obj.inv.modified = true ∧
    EndsWithRoot w inv.digestAlg (session w inv s).obj.trace ∧
    (∀ v ver, (v, ver) ∈ inv.versions → (v, ver) ∈ (session w inv s).obj.inv.versions) ∧
    ∃ r, w.dec (w.enc (session w inv s).obj.inv) = some r ∧ ReadBack w (session w inv s).obj.inv r ∧
      ValidObject w (applyOps fs (session w inv s).obj.trace) p (N + 1 + rs.length) r ∧
      Intact w (applyOps fs (session w inv s).obj.trace) p (N + 1 + rs.length) (loadedInv p r) := by
  induction rs generalizing fs N inv s with
  | nil =>
    have hs : CleanSession w p N inv s := hs
    obtain ⟨i, o, f, D⟩ := deposited hL h.ok hs.names hs.rounds hs.completes hs.modified
    exact ⟨hs.completes, hs.modified, ⟨_, f, o.inv, _, D.trace, (D.scalars h.ok).2.1⟩,
      fun v ver hv => by rw [D.result]; exact D.versionOld h.ok hv, staged_session hc hx hL ht h hs⟩
  | cons r rs ih =>
    obtain ⟨hr, hs, hrest⟩ := hs
    obtain ⟨t, f, k1, k2⟩ := session_rounds h.ok.wf hr hs.completes hs.modified
    obtain ⟨i, o, g, D⟩ := deposited hL h.ok hs.names hs.rounds hs.completes hs.modified
    have halg : (session w inv s.first).obj.inv.digestAlg = inv.digestAlg := by
      rw [D.result]; exact (D.scalars h.ok).2.1
    obtain ⟨a1, a2, a3, a0, q, a4, a5, a6, a7⟩ := ih (session_staged hc hx hL ht h hs) hrest
    have hinv := k2.obj.inv
    have htr := k2.obj.trace
    have hend : EndsWithRoot w inv.digestAlg (session w inv s).obj.trace := by
      obtain ⟨t1, g', j, t2, e1, e2⟩ := a3
      exact ⟨t ++ t1, g', j, t2, by rw [htr, e1, List.append_assoc], e2.trans halg⟩
    have hsame : ∀ x, mget (applyOps fs (session w inv s).obj.trace) x = mget (applyOps (applyOps fs
        (session w inv s.first).obj.trace) (session w (session w inv s.first).obj.inv (s.follow r rs)).obj.trace) x := by
      intro x
      rw [htr, k1, applyOps_append, ← applyOps_append (t := t ++ _), List.append_assoc, applyOps_append (t := t)]
      exact a3.forget _ rfl x
    have hlen : N + 1 + (r :: rs).length = N + 1 + 1 + rs.length := by simp only [List.length_cons]; omega
    rw [hlen]
    refine ⟨k2.err.trans a1, by rw [hinv]; exact a2, hend,
      fun v ver hv => by rw [hinv]; exact a0 v ver (by rw [D.result]; exact D.versionOld h.ok hv), q, by rw [hinv]; exact a4, by rw [hinv]; exact a5,
      a6.congr hsame (applyOps_keysNodup h.nodup), a7.congr hsame (applyOps_keysNodup h.nodup)⟩

/-- **C165.** A session in which extensions ask for further versions — any number — succeeds and leaves a valid object
with that many versions more, if each version taken by itself does. -/
theorem C165_rounds_valid {w : World} (hc : Codec w) (hx : HexHash w) (hL : LowerHash w)
    (ht : ∀ t, w.time (w.time t) = w.time t) {fs : FS} {p N : Nat} {inv : Inv} {s : Session} (h : Intact w fs p N inv)
    (hs : CleanRun w p s.rounds N inv s) :
    (session w inv s).err = none ∧
    ∃ r, w.dec (w.enc (session w inv s).obj.inv) = some r ∧ ReadBack w (session w inv s).obj.inv r ∧
      ValidObject w (applyOps fs (session w inv s).obj.trace) p (N + 1 + s.rounds.length) r ∧
      Intact w (applyOps fs (session w inv s).obj.trace) p (N + 1 + s.rounds.length) (loadedInv p r) := by
  obtain ⟨h1, _, _, _, h2⟩ := staged_run hc hx hL ht h.staged hs
  exact ⟨h1, h2⟩

/-- **C165, the user's version.** The versions an extension adds leave those before as they are: each version the object
would have without them — the one just made by the user included — is read from the stored inventory with the same date,
message, user and files. -/
theorem C165_user_version {w : World} (hc : Codec w) (hx : HexHash w) (hL : LowerHash w)
    (ht : ∀ t, w.time (w.time t) = w.time t) {fs : FS} {p N : Nat} {inv : Inv} {s : Session} {r : Round} {rs : List Round}
    (h : Intact w fs p N inv) (hr : s.rounds = r :: rs) (hs : CleanRun w p s.rounds N inv s) {q : RawInv}
    (hq : ∃ b, mget (applyOps fs (session w inv s).obj.trace) rootInvPath = some b ∧ w.dec b = some q) :
    ∀ v ver, (v, ver) ∈ (session w inv s.first).obj.inv.versions →
      ∃ ver', (v, ver') ∈ q.inv.versions ∧ ver'.created = w.time ver.created ∧ ver'.message = ver.message ∧
        ver'.userName = ver.userName ∧ ver'.userAddress = ver.userAddress ∧ ver.state.Perm ver'.state := by
  intro v ver hv
  obtain ⟨_, _, _, _, q', hd, R, V, _⟩ := staged_run hc hx hL ht h.staged hs
  rw [hr] at hs
  obtain ⟨_, h1, h2⟩ := hs
  obtain ⟨_, _, _, a0, _⟩ := staged_run hc hx hL ht (session_staged hc hx hL ht h.staged h1) h2
  obtain ⟨t, f, _, k2⟩ := session_rounds h.ok.wf hr h1.completes h1.modified
  have hin : (v, ver) ∈ (session w inv s).obj.inv.versions := by rw [k2.obj.inv]; exact a0 v ver hv
  obtain ⟨b, b1, b2⟩ := hq
  obtain ⟨b', _, _, c1, c2, _⟩ := V.stored
  rw [b1] at c1
  cases c1
  rw [b2] at c2
  cases c2
  obtain ⟨ver', e1, e2, e3, e4, e5, e6⟩ := R.version v ver hin
  exact ⟨ver', e1, e2.symm, e3.symm, e4.symm, e5.symm, e6⟩

/-- **C165, full statement** (false): a session whose own version would succeed leaves an object with this version,
whatever the extensions do afterwards. -/
def C165_full : Prop :=
  ∀ (w : World) (fs : FS) (p N : Nat) (inv : Inv) (s : Session), Codec w → HexHash w → LowerHash w →
    (∀ t, w.time (w.time t) = w.time t) → Intact w fs p N inv → CleanSession w p N inv s.first →
    ∃ q, StoredInv w (applyOps fs (session w inv s).obj.trace) q ∧
      verName (p : Int) ((N + 1 : Nat) : Int) ∈ mkeys q.inv.versions

/-! ## Cases -/

/-- a file is deposited; an extension asks for a version, in which it adds another, and for one more, in which it
renames the first -/
def exRounds : Session := { exSession "c/d".toList with rounds :=
  [⟨⟨"automated version".toList, "gocfl".toList, [], []⟩, [], [.add "e".toList [] [7, 7] true], []⟩,
   ⟨⟨"automated version".toList, "gocfl".toList, [], []⟩, [], [.rename "c/d".toList "f".toList "a0".toList], [.ext "x".toList [1]]⟩] }

theorem exRounds_clean : CleanRun exKeep 0 exRounds.rounds 0 lifeInv0 exRounds := by
  refine ⟨rfl, exFirst_clean, rfl, ⟨?_, rfl, by decide, by decide, by decide,
    headPaths_of (p := 0) (N := 2) (validInv_of (by decide)), by decide⟩, ⟨?_, rfl, by decide, by decide, by decide,
    headPaths_of (p := 0) (N := 3) (validInv_of (by decide)), by decide⟩⟩
  · intro x hx i hi
    have : x = ("e".toList, []) := by
      simpa [Session.uses, Session.first, Session.follow, exRounds, exSession, callsUses, Call.uses] using hx
    subst this
    cases hi
    exact ⟨0, by decide⟩
  · intro x hx
    simp [Session.uses, Session.follow, callsUses, Call.uses] at hx

/-- the hypotheses of C165 are met: three versions -/
theorem exRounds_valid : ∃ r, ValidObject exKeep (applyOps (applyOps [] (initObject exArgs [] "a".toList).1)
    (session exKeep lifeInv0 exRounds).obj.trace) 0 3 r := by
  obtain ⟨_, r, _, _, h, _⟩ := C165_rounds_valid (codecWorld_codec _) (codecWorld_hex _) exKeep_lower (fun _ => rfl)
    (intact_new exArgs_good rfl).1 exRounds_clean
  exact ⟨r, h⟩

/-- the extension fails: what it is to add cannot be opened -/
def exFailing : Session := { exSession "c/d".toList with rounds :=
  [⟨⟨"automated version".toList, "gocfl".toList, [], []⟩, [], [.reader [] [] []], []⟩] }

/-- An extension that fails in a version it asked for takes the version of the user with it: the root inventory is not
written, the object has no inventory. -/
theorem C165_full_fails : ¬ C165_full := by
  intro hc
  obtain ⟨q, ⟨b, _, _, h1, _⟩, _⟩ := hc exKeep _ 0 0 lifeInv0 exFailing (codecWorld_codec _) (codecWorld_hex _) exKeep_lower
    (fun _ => rfl) (intact_new exArgs_good rfl).1 exFirst_clean
  have : mget (applyOps (applyOps [] (initObject exArgs [] "a".toList).1) (session exKeep lifeInv0 exFailing).obj.trace)
      rootInvPath = none := by decide
  rw [this] at h1
  cases h1

end Gocfl
