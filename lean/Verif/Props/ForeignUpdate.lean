import Verif.Props.Life
import Verif.Props.AcceptedObject

/-! # Updating valid objects that other tools made (C186)

A valid object need not have been written by this tool: versions may be numbered with leading zeros, the content
directory may have any name, the inventories of earlier versions may be missing, fixity blocks may be there.  A session
of this tool reads the root inventory and writes it again, with all its versions.  Time stamps are then written
without fractions of a second (pkg/ocfl/inventorytypes.go:76-79). -/

namespace Gocfl

/-- What the specification leaves open and the tool relies on: digests in fixity blocks have small letters, and the
fixity block does not name an algorithm twice (true of every JSON object that was read into a Go map). -/
structure PlainFixity (inv : Inv) : Prop where
  lower : ∀ a mm d, (a, mm) ∈ inv.fixity → d ∈ mkeys mm → toLower d = d
  keys : (mkeys inv.fixity).Nodup

/-- every time stamp is one that the tool would write: a whole second -/
def WholeSeconds (w : World) (inv : Inv) : Prop := ∀ v ver, (v, ver) ∈ inv.versions → w.time ver.created = ver.created

theorem foreign_ok {w : World} {fs : FS} {p N : Nat} {r : RawInv} (O : ValidObject w fs p N r) (hf : PlainFixity r.inv) :
    InvOk p N (loadedInv p r) := by
  have V := O.inv
  refine ⟨⟨⟨V.versions, ?_⟩, V.stateKeys⟩, rfl, ⟨V.manifestKeys, hf.keys, fun a m hm => (V.fixityKeys a m hm).of_map⟩,
    V.id, V.spec, V.contentDirectory, O.alg, V.used, ⟨?_, V.nonempty.1⟩, V.nonempty.2, hf.lower, V.paths, V.noConflict, V.content⟩
  · rw [if_neg (by have := V.some; omega)]; exact V.head
  · intro v ver d hv hd
    obtain ⟨ps, hps⟩ := mem_mkeys_iff.1 hd
    exact V.covered v ver d ps hv hps

theorem foreign_intact {w : World} {fs : FS} {p N : Nat} {r : RawInv} (O : ValidObject w fs p N r) (hf : PlainFixity r.inv)
    (ht : WholeSeconds w r.inv) : Intact w fs p N (loadedInv p r) := by
  refine ⟨foreign_ok O hf, ⟨O.files.content, O.files.complete, O.files.fixity, O.files.algs⟩, O.nodup, O.decl, O.dirs, O.folders,
    O.versionFiles, ?_, O.specs, ?_, ht⟩
  · intro n b h0 hn hb
    obtain ⟨i, i1, i2, i3, i4, i5⟩ := O.inventories n b h0 hn hb
    exact ⟨i, i1, i2, i3, ⟨i4.id, i4.contentDirectory, i4.alg, i4.metadata, i4.state, i4.digests⟩, i5⟩
  · intro n b i h0 hn hb hi
    obtain ⟨b2, hb2, hb3⟩ := O.last
    obtain ⟨b4, _, _, hb4, hd4, _⟩ := O.stored
    rw [hb3] at hb4; cases hb4
    rw [O.inv.head] at hb2
    exact O.specs n N b b2 i r h0 hn (le_refl _) hb hb2 hi hd4

/-- the inventory of the last version stays as it was, so it still has the time stamps as they were -/
theorem foreign_times {w : World} (hc : Codec w) (hL : LowerHash w) {fs : FS} {p N : Nat} {r r' : RawInv} {s : Session}
    (O : ValidObject w fs p N r) (hf : PlainFixity r.inv) (hs : CleanSession w p N (loadedInv p r) s)
    (hr : w.dec (w.enc (session w (loadedInv p r) s).obj.inv) = some r') :
    (∃ b, mget (applyOps fs (session w (loadedInv p r) s).obj.trace) (verInvPath r.inv.head) = some b ∧ w.dec b = some r) ∧
    mget (applyOps fs (session w (loadedInv p r) s).obj.trace) rootInvPath = some (w.enc (session w (loadedInv p r) s).obj.inv) ∧
    ∀ v ver, (v, ver) ∈ r.inv.versions → ∃ ver', (v, ver') ∈ r'.inv.versions ∧ ver'.created = w.time ver.created := by
  have hok := foreign_ok O hf
  refine ⟨?_, ?_, ?_⟩
  · obtain ⟨b, hb, hb2⟩ := O.last
    obtain ⟨b4, _, _, hb4, hd4, _⟩ := O.stored
    rw [hb2] at hb4; cases hb4
    refine ⟨b, ?_, hd4⟩
    rw [← hb]
    refine mget_applyOps_ne (fun op hop he => ?_)
    refine session_not_old hok.wf hok.cdir hs.names hop ?_
    rw [he, verInv_eq, O.inv.head]
    exact ⟨N, O.inv.some, le_refl _, _, rfl⟩
  · obtain ⟨i, o, f, D⟩ := deposited hL hok hs.names hs.rounds hs.completes hs.modified
    obtain ⟨s1, s2, s3, s4, s5, s6, s7, s8⟩ := D.scalars hok
    have hstored := stored_files (w := w) (f := f) (t0 := o.trace) (exts := s.exts) (fs := fs) (inv := o.inv)
      (by rw [s7]; exact verName_head _ _)
    simp only at hstored
    rw [← D.trace] at hstored
    rw [hstored.1, D.result]
  · intro v ver hv
    obtain ⟨i, o, f, D⟩ := deposited hL hok hs.names hs.rounds hs.completes hs.modified
    have hH := hs.paths
    rw [D.result] at hH hr
    have hok' := D.ok hok hH
    obtain ⟨r2, hdec, hre⟩ := hc.roundTrip o.inv hok'.keys hok'.wf.1.nodup hok'.wf.2
    rw [hr] at hdec; cases hdec
    obtain ⟨ver', h1, h2⟩ := (readBack_of hre).version v ver (D.versionOld hok hv)
    exact ⟨ver', h1, h2.1.symm⟩

/-- **C186, exactly when it holds.** After a session on a valid object — whoever made it — the object is valid if and
only if all time stamps of the old versions are whole seconds. -/
theorem C186_update_iff {w : World} (hc : Codec w) (hx : HexHash w) (hL : LowerHash w)
    (ht : ∀ t, w.time (w.time t) = w.time t) {fs : FS} {p N : Nat} {r : RawInv} {s : Session}
    (O : ValidObject w fs p N r) (hf : PlainFixity r.inv) (hs : CleanSession w p N (loadedInv p r) s) :
    (∃ r', ValidObject w (applyOps fs (session w (loadedInv p r) s).obj.trace) p (N + 1) r') ↔ WholeSeconds w r.inv := by
  constructor
  · rintro ⟨r', O'⟩ v ver hv
    have hok := foreign_ok O hf
    obtain ⟨i, o, f, D⟩ := deposited hL hok hs.names hs.rounds hs.completes hs.modified
    have hH := hs.paths
    rw [D.result] at hH
    have hok' := D.ok hok hH
    obtain ⟨r2, hdec, hre⟩ := hc.roundTrip o.inv hok'.keys hok'.wf.1.nodup hok'.wf.2
    rw [← D.result] at hdec
    obtain ⟨⟨b, hb, hbd⟩, hroot, htimes⟩ := foreign_times hc hL O hf hs hdec
    obtain ⟨b', _, _, hb', hd', _⟩ := O'.stored
    rw [hroot] at hb'; cases hb'
    rw [hdec] at hd'; cases hd'
    rw [O.inv.head] at hb
    obtain ⟨j, ⟨b3, _, _, hb3, hd3, _⟩, _, _, hsame, _⟩ := O'.inventories N b O.inv.some (by omega) hb
    rw [mget_subFS] at hb3
    have : b3 = b := Option.some.inj (hb3.symm.trans hb)
    subst this
    rw [hbd] at hd3; cases hd3
    obtain ⟨ver', h1, h2⟩ := htimes v ver hv
    rw [← h2]
    exact (hsame.metadata v ver ver' hv h1).1.symm
  · intro h
    obtain ⟨r', _, _, h', _⟩ := C80_session_valid hc hx hL ht (foreign_intact O hf h) hs
    exact ⟨r', h'⟩

/-- **C186, validation.** If some time stamp is not a whole second, validation reports an error after the session: the
inventory of the last version has the time stamp as it was, the root inventory has it cut off. -/
theorem C186_rejected {w : World} (hc : Codec w) (hL : LowerHash w) {fs : FS} {p N : Nat} {r : RawInv} {s : Session}
    (O : ValidObject w fs p N r) (hf : PlainFixity r.inv) (hs : CleanSession w p N (loadedInv p r) s)
    (hn : ¬ WholeSeconds w r.inv) {env : Env} {plain : Bool} {blank : Inv} {root : FS} {folder : Str}
    (hroot : subFS root folder = applyOps fs (session w (loadedInv p r) s).obj.trace) :
    ¬ ∃ F, checkFolder w env plain blank root folder = .ok F ∧ NoErrors F := by
  rw [C184_accepted_iff hL, hroot]
  rintro ⟨r', A⟩
  refine hn (fun v ver hv => ?_)
  have hok := foreign_ok O hf
  obtain ⟨i, o, f, D⟩ := deposited hL hok hs.names hs.rounds hs.completes hs.modified
  have hH := hs.paths
  rw [D.result] at hH
  have hok' := D.ok hok hH
  obtain ⟨r2, hdec, hre⟩ := hc.roundTrip o.inv hok'.keys hok'.wf.1.nodup hok'.wf.2
  have R := readBack_of hre
  rw [← D.result] at hdec
  obtain ⟨⟨b, hb, hbd⟩, hroot, htimes⟩ := foreign_times hc hL O hf hs hdec
  obtain ⟨⟨b', _, _, hb', hd', _⟩, _⟩ := A.root
  rw [hroot] at hb'; cases hb'
  rw [hdec] at hd'; cases hd'
  have hhead : r.inv.head ∈ mkeys r'.inv.versions := by
    obtain ⟨ver0, h0⟩ := mem_mkeys_iff.1 ((O.inv.mem_keys r.inv.head).2 ⟨N, O.inv.some, le_refl _, O.inv.head⟩)
    obtain ⟨x, hx, _⟩ := htimes _ ver0 h0
    exact mem_mkeys_of_mem hx
  obtain ⟨j, ⟨⟨b3, _, _, hb3, hd3, _⟩, _⟩, hj⟩ := A.versions _ hhead (by
    intro h
    exact absurd (hb.symm.trans h) (by simp))
  rw [mget_subFS] at hb3
  have : b3 = b := Option.some.inj (hb3.symm.trans hb)
  subst this
  rw [hbd] at hd3; cases hd3
  obtain ⟨ver', h1, h2⟩ := htimes v ver hv
  rw [← h2]
  exact (hj.agree v ver ver' hv (mget_of_mem (R.keys.nodup_iff.1 hok'.wf.1.nodup) h1)).2.1

/-- Any number of sessions one after the other, the object loaded anew for each. -/
inductive Updates (w : World) (env : Env) (p : Nat) (fs : FS) (N : Nat) (inv : Inv) : FS → Nat → Inv → Prop
  | none : Updates w env p fs N inv fs N inv
  | session (fs' : FS) (N' : Nat) (inv' inv2 : Inv) (s : Session) (f : List Fnd) : Updates w env p fs N inv fs' N' inv' →
      CleanSession w p N' inv' s → loadRoot w env (applyOps fs' (session w inv' s).obj.trace) = .ok (inv2, f) →
      Updates w env p fs N inv (applyOps fs' (session w inv' s).obj.trace) (N' + 1) inv2

/-- **C186, the part that holds.** A valid object, whoever made it, is loaded and changed by any number of sessions: it
stays valid, and no file in the folders of the versions it had is changed, removed or added. -/
theorem C186_updates_partial {w : World} (hc : Codec w) (hx : HexHash w) (hL : LowerHash w)
    (ht : ∀ t, w.time (w.time t) = w.time t) {env : Env} {fs fs' : FS} {p N N' : Nat} {r : RawInv} {inv inv' : Inv} {f : List Fnd}
    (O : ValidObject w fs p N r) (hf : PlainFixity r.inv) (hw : WholeSeconds w r.inv)
    (hl : loadRoot w env fs = .ok (inv, f)) (h : Updates w env p fs N inv fs' N' inv') :
    (∃ r', ValidObject w fs' p N' r' ∧ inv' = loadedInv p r' ∧ PlainFixity r'.inv ∧ WholeSeconds w r'.inv) ∧ N ≤ N' ∧
      ∀ v x, v ∈ mkeys r.inv.versions → mget fs' (v ++ '/' :: x) = mget fs (v ++ '/' :: x) := by
  obtain ⟨f', hl'⟩ := load_valid_any env O.stored O.decoded O.inv
  rw [hl] at hl'
  cases hl'
  induction h with
  | none => exact ⟨⟨r, O, rfl, hf, hw⟩, le_refl _, fun _ _ _ => rfl⟩
  | session fs1 N1 inv1 inv2 s f _ hs hl2 ih =>
    obtain ⟨⟨r1, O1, rfl, hf1, hw1⟩, hle, hold⟩ := ih
    have hI := foreign_intact O1 hf1 hw1
    obtain ⟨r2, _, _, O2, I2⟩ := C80_session_valid hc hx hL ht hI hs
    obtain ⟨f2, hl3⟩ := load_valid_any env O2.stored O2.decoded O2.inv
    rw [hl2] at hl3
    cases hl3
    refine ⟨⟨r2, O2, rfl, ⟨I2.ok.lower, I2.ok.keys.fixity⟩, I2.times⟩, by omega, ?_⟩
    intro v x hv
    obtain ⟨k, h0, hk, rfl⟩ := (O.inv.mem_keys v).1 hv
    rw [← hold _ x hv]
    refine mget_applyOps_ne (fun op hop he => ?_)
    exact session_not_old hI.ok.wf hI.ok.cdir hs.names hop (by rw [he]; exact ⟨k, h0, by omega, x, rfl⟩)

/-! ## A world in which time stamps are cut off when written, but not when read -/

/-- another tool's inventories may have any time stamps -/
noncomputable def cutWorld (time : Str → Str) : World :=
  { exWorld with enc := fun inv => exEnc (stampInv time inv), dec := exDec (fun t => t), time := time }

theorem stampInv_id (inv : Inv) : stampInv (fun t => t) inv = inv := by
  unfold stampInv
  simp

theorem cutWorld_codec (time : Str → Str) : Codec (cutWorld time) where
  roundTrip := fun inv _ _ _ => ⟨_, exDec_enc (fun t => t) (stampInv time inv), by
    rw [stampInv_id]; exact Reordered.refl _⟩
  empty := (codecWorld_codec (fun t => t)).empty

theorem cut_valid (time : Str → Str) {fs : FS} {p N : Nat} {r : RawInv} (h : ValidObject exKeep fs p N r) :
    ValidObject (cutWorld time) fs p N r :=
  ⟨h.nodup, h.stored, h.decoded, h.inv, h.alg, ⟨h.files.content, h.files.complete, h.files.fixity, h.files.algs⟩, h.decl, h.dirs,
    h.folders, h.versionFiles, fun n b h0 hn hb => by
      obtain ⟨i, i1, i2, i3, i4, i5⟩ := h.inventories n b h0 hn hb
      exact ⟨i, i1, i2, i3, i4, ⟨i5.content, i5.complete, i5.fixity, i5.algs⟩⟩, h.last, h.specs⟩

/-- half a second is lost -/
def cutTime (t : Str) : Str := if t = "2020-01-01T00:00:00.5Z".toList then "2020-01-01T00:00:00Z".toList else t

theorem cutTime_idem (t : Str) : cutTime (cutTime t) = cutTime t := by
  unfold cutTime
  split
  · rw [if_neg (by decide)]
  · rfl

/-- the first version of an object of another tool, written at `now` -/
def otherTool (now : Str) : Session := { exSession "c/d".toList with info := { (exSession []).info with now := now } }

theorem otherTool_clean {now : Str} (h : now = [] ∨ now = "2020-01-01T00:00:00.5Z".toList) :
    CleanSession exKeep 0 0 lifeInv0 (otherTool now) := by
  rcases h with rfl | rfl
  all_goals
    refine ⟨exNames, rfl, by decide, by decide, by decide, headPaths_of (p := 0) (N := 1) (validInv_of (by decide)), by decide⟩

/-- its inventory -/
noncomputable def otherRaw (now : Str) : RawInv := rawOf (stampInv (fun t => t) (session exKeep lifeInv0 (otherTool now)).obj.inv)

/-- its folder -/
noncomputable def otherFS (now : Str) : FS :=
  applyOps (applyOps [] (initObject exArgs [] "a".toList).1) (session exKeep lifeInv0 (otherTool now)).obj.trace

theorem other_valid {now : Str} (h : now = [] ∨ now = "2020-01-01T00:00:00.5Z".toList) :
    ValidObject (cutWorld cutTime) (otherFS now) 0 1 (otherRaw now) := by
  have hC : Codec exKeep := codecWorld_codec _
  have hX : HexHash exKeep := codecWorld_hex _
  obtain ⟨r, hd, _, hV, _⟩ := C80_session_valid hC hX exKeep_lower (fun _ => rfl)
    (life_alive hC hX exKeep_lower (fun _ => rfl) exArgs_good (life_start exEnv)).intact
    (otherTool_clean h)
  generalize hi : (session exKeep lifeInv0 (otherTool now)).obj.inv = i at hd
  have h1 : exKeep.dec (exKeep.enc i) = some (rawOf (stampInv (fun t => t) i)) := exDec_enc _ _
  rw [h1] at hd
  cases hd
  subst hi
  exact cut_valid cutTime hV

theorem other_fixity {now : Str} (h : now = [] ∨ now = "2020-01-01T00:00:00.5Z".toList) : PlainFixity (otherRaw now).inv := by
  have : (otherRaw now).inv.fixity = [] := by rcases h with rfl | rfl <;> decide
  refine ⟨?_, ?_⟩
  · rw [this]; intro a mm d hm; cases hm
  · rw [this]; exact List.nodup_nil

theorem other_clean {now : Str} (h : now = [] ∨ now = "2020-01-01T00:00:00.5Z".toList) :
    CleanSession (cutWorld cutTime) 0 1 (loadedInv 0 (otherRaw now)) exSecond := by
  have hnames : SafeNames (cutWorld cutTime) exSecond := by
    intro x hx i hi
    have : x = ("e".toList, []) := by simpa [Session.uses, exSecond, exSession, callsUses, Call.uses] using hx
    subst this
    cases hi
    exact ⟨0, by decide⟩
  rcases h with rfl | rfl
  all_goals
    exact ⟨hnames, rfl, by decide, by decide, by decide, headPaths_of (p := 0) (N := 2) (validInv_of (by decide)), by decide⟩

theorem cut_lower : LowerHash (cutWorld cutTime) := exKeep_lower
theorem cut_hex : HexHash (cutWorld cutTime) := codecWorld_hex (fun t => t)

/-- the hypotheses of `C186_update_iff` are met, with time stamps of either kind -/
example : ∃ r, ValidObject (cutWorld cutTime) (applyOps (otherFS []) (session (cutWorld cutTime) (loadedInv 0 (otherRaw [])) exSecond).obj.trace)
    0 2 r := by
  refine (C186_update_iff (cutWorld_codec _) cut_hex cut_lower cutTime_idem (other_valid (.inl rfl)) (other_fixity (.inl rfl))
    (other_clean (.inl rfl))).2 ?_
  have : ∀ e ∈ (otherRaw []).inv.versions, cutTime e.2.created = e.2.created := by decide
  exact fun v ver hv => this _ hv

/-- **C186, in full**: after a session on a valid object the object is valid. -/
def C186_full : Prop := ∀ (w : World) (fs : FS) (p N : Nat) (r : RawInv) (s : Session), Codec w → HexHash w → LowerHash w →
  (∀ t, w.time (w.time t) = w.time t) → ValidObject w fs p N r → PlainFixity r.inv → CleanSession w p N (loadedInv p r) s →
  ∃ r', ValidObject w (applyOps fs (session w (loadedInv p r) s).obj.trace) p (N + 1) r'

/-- C186 is violated: the first version was written by another tool at half past a second. -/
theorem C186_full_fails : ¬ C186_full := by
  intro h
  have h1 := (C186_update_iff (cutWorld_codec _) cut_hex cut_lower cutTime_idem (other_valid (.inr rfl)) (other_fixity (.inr rfl))
    (other_clean (.inr rfl))).1 (h _ _ _ _ _ _ (cutWorld_codec _) cut_hex cut_lower cutTime_idem (other_valid (.inr rfl))
      (other_fixity (.inr rfl)) (other_clean (.inr rfl)))
  have h2 : ∃ e ∈ (otherRaw "2020-01-01T00:00:00.5Z".toList).inv.versions, cutTime e.2.created ≠ e.2.created := by decide
  obtain ⟨e, he, hne⟩ := h2
  exact hne (h1 e.1 e.2 he)

end Gocfl
