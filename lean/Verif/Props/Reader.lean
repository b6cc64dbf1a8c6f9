import Verif.Model.Reader
import Verif.Props.ExtractHistory

/-!
# Extracting an object while it is being updated (C136)
-/

namespace Gocfl

/-! ## C136: specification -/

/-- A state of the files at some moment of a life of the object: after any number of sessions, in the middle of one more. -/
def Moment (w : World) (inv0 : Inv) (fs0 fs1 : FS) : Prop :=
  ∃ inv fs s t, Later w (SafeNames w) inv0 fs0 inv fs ∧ SafeNames w s ∧ CrashPrefix t (session w inv s).obj.trace ∧
    fs1 = applyOps fs t

/-- A state of the files not before the moment when the session `s` has done the part `t` of its writes: the session goes
on; or is over, having stored its inventory or having failed before, and others follow. -/
inductive Since (w : World) (inv : Inv) (fs : FS) (s : Session) (t : List FsOp) : FS → Prop
  | running (t' : List FsOp) : CrashPrefix t t' → CrashPrefix t' (session w inv s).obj.trace → Since w inv fs s t (applyOps fs t')
  | failed (t' : List FsOp) {fs1 : FS} : CrashPrefix t t' → CrashPrefix t' (session w inv s).obj.trace →
      (∀ op ∈ t', op.path ≠ rootInvPath) → Moment w inv (applyOps fs t') fs1 → Since w inv fs s t fs1
  | done (i : Inv) {fs1 : FS} : (session w inv s).err = none → (session w inv s).obj.inv.modified = true →
      SameInv (stampInv w.time (session w inv s).obj.inv) i →
      Moment w i (applyOps fs (session w inv s).obj.trace) fs1 → Since w inv fs s t fs1

/-- **C136, full statement** (false): whoever loads an object that loads, while a session is at work on it, and then reads
content while this session goes on and others follow, gets exactly the extraction before the session or exactly the one
after it. -/
def C136_full : Prop :=
  ∀ (w : World) (env : Env) (fs a : FS) (inv : Inv) (n : Nat) (s : Session) (t : List FsOp) (F : List Fnd) (view : Nat → FS),
    Codec w → HexHash w → Sound inv n → FixKeys inv → SafeNames w s → w.hash inv.digestAlg ≠ none →
    loadRoot w env fs = .ok (inv, F) → NoEmptyPath (session w inv s).obj.inv →
    CrashPrefix t (session w inv s).obj.trace → Since w inv fs s t a → (∀ k, Since w inv fs s t (view k)) →
    ∃ i g, loadRootAt w env (applyOps fs t) a = .ok (i, g) ∧
      ((i = inv ∧ ∀ xp v wm, extractAt w i view xp v wm = extract w inv fs xp v wm) ∨
        ((∃ g', loadRoot w env (applyOps fs (session w inv s).obj.trace) = .ok (i, g')) ∧
          ∀ xp v wm, extractAt w i view xp v wm = extract w i (applyOps fs (session w inv s).obj.trace) xp v wm))

/-! ## Reading from different moments -/

theorem loadRootAt_self (w : World) (env : Env) (fs : FS) : loadRootAt w env fs fs = loadRoot w env fs := rfl

theorem extractNamesAt_eq {hash : Option (Bytes → Str)} {view : Nat → FS} {fs : FS} {xp : ExtractPath} {is : List Str} {d : Str}
    (h : ∀ k, ∀ p ∈ is, mget (view k) p = mget fs p) (k : Nat) (es : List Str) :
    extractNamesAt hash view xp is d k es = extractNames hash fs xp is d es := by
  induction es generalizing k with
  | nil => rfl
  | cons e es ih =>
    unfold extractNamesAt extractNames
    cases hx : xp e with
    | error x => rfl
    | ok o =>
      cases o with
      | none => rfl
      | some x =>
        cases is with
        | nil => rfl
        | cons i is =>
          have hc : copyOut hash (view k) i x d = copyOut hash fs i x d := by
            unfold copyOut; rw [h k i (by simp)]
          simp only [hc, ih]
          cases (copyOut hash fs i x d).2 <;> rfl

theorem extractStateAt_eq {hash : Option (Bytes → Str)} {view : Nat → FS} {fs : FS} {xp : ExtractPath} {man : DMap}
    (h : ∀ k d m p, (d, m) ∈ man → p ∈ m → mget (view k) p = mget fs p) (k : Nat) (st : DMap) :
    extractStateAt hash view xp man k st = extractState hash fs xp man st := by
  induction st generalizing k with
  | nil => rfl
  | cons e st ih =>
    obtain ⟨d, names⟩ := e
    unfold extractStateAt extractState
    cases hd : mget man d with
    | none => rfl
    | some m =>
      cases m with
      | nil => rfl
      | cons i is =>
        have hn := extractNamesAt_eq (hash := hash) (xp := xp) (d := d) (is := i :: is) (view := view) (fs := fs)
          (fun k p hp => h k d _ p (mem_of_mget hd) hp) k names
        simp only [hn, ih]
        cases (extractNames hash fs xp (i :: is) d names).err <;> rfl

/-- If no file that the inventory lists changes, nothing shows that it is read at different moments. -/
theorem extractAt_eq {w : World} {inv : Inv} {view : Nat → FS} {fs : FS}
    (h : ∀ k p, Listed inv p → mget (view k) p = mget fs p) (xp : ExtractPath) (v : Str) (wm : Bool) :
    extractAt w inv view xp v wm = extract w inv fs xp v wm := by
  unfold extractAt extract
  cases mget inv.versions (selectVersion inv v) with
  | none => rfl
  | some ver =>
    have := extractStateAt_eq (hash := w.hash inv.digestAlg) (xp := xp) (view := view) (fs := fs) (man := inv.manifest)
      (fun k d m p hd hp => h k p ⟨d, m, hd, hp⟩) 0 ver.state
    simp only [this]
    cases (extractState (w.hash inv.digestAlg) fs xp inv.manifest ver.state).err <;> rfl

/-! ## What later moments keep -/

theorem CrashPrefix.trans {a b c : List FsOp} (h1 : CrashPrefix a b) (h2 : CrashPrefix b c) : CrashPrefix a c := by
  induction h1 generalizing c with
  | stop => exact .stop _
  | torn p x y t =>
    cases h2 with
    | torn _ _ z _ => rw [List.append_assoc]; exact .torn _ _ _ _
    | next _ _ => exact .torn _ _ _ _
  | @next op t' t h ih =>
    cases h2 with
    | torn p x y u =>
      cases h with
      | stop => exact .torn _ _ _ _
    | next _ h2 => exact .next _ (ih h2)

theorem moment_keeps {w : World} {inv0 : Inv} {fs0 fs1 : FS} {n : Nat} (h0 : Sound inv0 n) (hm : Moment w inv0 fs0 fs1)
    {p : Str} (hp : Listed inv0 p) : mget fs1 p = mget fs0 p := by
  obtain ⟨inv, fs, s, t, hl, hs, ht, rfl⟩ := hm
  obtain ⟨k, m, hS, _⟩ := later_keeps h0 hl
  rw [← k.files p hp]
  refine mget_applyOps_ne (fun op hop hc => ?_)
  obtain ⟨op', h1, h2⟩ := ht.path hop
  exact session_not_old hS.wf hS.cdir hs h1 (by rw [h2, hc]; exact hS.files p (k.listed h0.keys hp))

/-- **C136**, the part about content: an inventory that is loaded is good for the extraction from then on, whatever updates
come in between. -/
theorem C136_contents {w : World} {inv : Inv} {fs : FS} {n : Nat} (h0 : Sound inv n) {view : Nat → FS}
    (hv : ∀ k, Moment w inv fs (view k)) (xp : ExtractPath) (v : Str) (wm : Bool) :
    extractAt w inv view xp v wm = extract w inv fs xp v wm :=
  extractAt_eq (fun k _ hp => moment_keeps h0 (hv k) hp) xp v wm

theorem since_keeps {w : World} {inv : Inv} {fs fs1 : FS} {n : Nat} {s : Session} {t : List FsOp} (h0 : Sound inv n)
    (hs : SafeNames w s) (h : Since w inv fs s t fs1) {p : Str} (hp : Listed inv p) : mget fs1 p = mget fs p := by
  cases h with
  | running t' h1 h2 => exact moment_keeps h0 ⟨inv, fs, s, t', .now, hs, h2, rfl⟩ hp
  | failed t' h1 h2 h3 hm =>
    rw [moment_keeps h0 hm hp]
    exact moment_keeps h0 ⟨inv, fs, s, t', .now, hs, h2, rfl⟩ hp
  | done i he hmod hsame hm =>
    obtain ⟨m', a1, _, _, _, _, a6⟩ := session_kept h0 hs he
    obtain ⟨b1, b2⟩ := a1.reload hsame
    have hp1 : Listed (session w inv s).obj.inv p := by
      obtain ⟨d, m, hd, hpm⟩ := hp
      obtain ⟨ext, hx⟩ := a6 d m (mget_of_mem h0.keys hd)
      exact ⟨d, _, mem_of_mget hx, List.mem_append.2 (Or.inl hpm)⟩
    rw [moment_keeps b1 hm ((b2 fs).listed a1.keys hp1)]
    exact moment_keeps h0 ⟨inv, fs, s, _, .now, hs, CrashPrefix.refl _, rfl⟩ hp

/-- a session that does not complete, or has nothing to store, does not touch the root inventory -/
theorem session_keeps_root {w : World} {inv : Inv} {n : Nat} {s : Session} (h : WF inv n) (hcd : ValidComp inv.contentDir)
    (hs : SafeNames w s) (hn : ¬ ((session w inv s).err = none ∧ (session w inv s).obj.inv.modified = true)) :
    ∀ op ∈ (session w inv s).obj.trace, op.path ≠ rootInvPath := by
  have hopen : ∀ op ∈ (sessionOpen w inv s).obj.trace, op.path ≠ rootInvPath := fun op hop =>
    newPath_ne_old hcd (fun p a i hu hi => hs (p, a) hu i hi) (sessionOpen_trace h s op hop) (Or.inl rfl)
  unfold session at hn ⊢
  cases he : (sessionOpen w inv s).err with
  | some e =>
    have : (sessionOpen w inv s).andThen (fun o => closeObj w o s.exts) = sessionOpen w inv s := by
      unfold Out.andThen; rw [he]
    rw [this]; exact hopen
  | none =>
    rw [andThen_none he] at hn ⊢
    rcases closeObj_cases w (sessionOpen w inv s).obj s.exts with ⟨h1, _⟩ | ⟨_, _, _, h1, _⟩ | ⟨_, h2, f, _, h4⟩
    · rw [h1]; exact hopen
    · rw [h1]; exact hopen
    · rw [h4] at hn
      exact absurd ⟨rfl, h2⟩ hn

/-- loading depends on the inventory; the sidecar only adds findings if its algorithm is known -/
theorem loadRootAt_ok {w : World} {env : Env} {fs a b : FS} {inv : Inv} {F : List Fnd} (hl : loadRoot w env fs = .ok (inv, F))
    (hh : w.hash inv.digestAlg ≠ none) (h1 : mget a rootInvPath = mget fs rootInvPath) :
    ∃ g, loadRootAt w env a b = .ok (inv, g) := by
  unfold loadRoot at hl
  unfold loadRootAt
  rw [h1]
  cases hb : mget fs rootInvPath with
  | none => rw [hb] at hl; cases hl
  | some bs =>
    rw [hb] at hl
    simp only at hl ⊢
    cases hd : w.dec bs with
    | none => rw [hd] at hl; cases hl
    | some r =>
      rw [hd] at hl
      simp only at hl ⊢
      obtain ⟨x, hx, hl⟩ := res_bind_eq_ok.1 hl
      obtain ⟨f, _, hl⟩ := res_bind_eq_ok.1 hl
      have e : { x.1 with modified := false, writeable := false } = inv := congrArg Prod.fst (Except.ok.inj hl)
      have ha : r.inv.digestAlg = inv.digestAlg := by rw [← e, finalize_inv hx]
      rw [hx, res_bind_ok, e]
      obtain ⟨g, hg⟩ : ∃ g, sidecarFnd w b (rootSidecarPath r.inv.digestAlg) r.inv.digestAlg bs = .ok g := by
        unfold sidecarFnd
        split
        · exact ⟨_, rfl⟩
        · split
          · exact ⟨_, rfl⟩
          · rw [ha]
            cases hk : w.hash inv.digestAlg with
            | none => exact absurd hk hh
            | some h => exact ⟨_, rfl⟩
      rw [hg, res_bind_ok]
      exact ⟨_, rfl⟩

/-- where a session is once it has touched the root inventory: all its content is written, the new inventory in part or
completely -/
theorem root_written {w : World} {inv : Inv} {n : Nat} {s : Session} {t : List FsOp} (h : WF inv n)
    (hcd : ValidComp inv.contentDir) (hs : SafeNames w s) (he : (session w inv s).err = none)
    (hm : (session w inv s).obj.inv.modified = true) (ht : CrashPrefix t (session w inv s).obj.trace)
    (hroot : ¬ ∀ op ∈ t, op.path ≠ rootInvPath) (fs : FS) :
    (∃ u, t = (sessionOpen w inv s).obj.trace ++ u ∧
      ∀ op ∈ u, op.path = rootInvPath ∨ (∃ alg, op.path = rootSidecarPath alg) ∨ ∃ x, op.path = extPath x) ∧
    ((∃ b1 b2, b2 ≠ [] ∧ w.enc (session w inv s).obj.inv = b1 ++ b2 ∧ mget (applyOps fs t) rootInvPath = some b1) ∨
      mget (applyOps fs t) rootInvPath = some (w.enc (session w inv s).obj.inv)) := by
  obtain ⟨f, t0, g1, g2, g3, g4, g5⟩ := session_stored h he hm
  have hopen : ∀ u, CrashPrefix u (sessionOpen w inv s).obj.trace → ∀ op ∈ u, op.path ≠ rootInvPath := by
    intro u hu op hop
    obtain ⟨op', h1, h2⟩ := hu.path hop
    rw [← h2]
    exact newPath_ne_old hcd (fun p a i hu hi => hs (p, a) hu i hi) (sessionOpen_trace h s op' h1) (Or.inl rfl)
  rw [g4] at ht
  rcases CrashPrefix.append ht with ht | ⟨u, hu, rfl⟩
  · exact absurd (hopen _ ht) hroot
  refine ⟨⟨u, rfl, fun op hop => ?_⟩, ?_⟩
  · obtain ⟨op', h1, h2⟩ := hu.path hop
    rw [← h2]
    rcases List.mem_append.1 h1 with h1 | h1
    · rcases mem_rootWrites_path h1 with h1 | h1
      · exact Or.inl h1
      · exact Or.inr (Or.inl ⟨_, h1⟩)
    · exact Or.inr (Or.inr (mem_extWrites_path h1))
  · have hu' : CrashPrefix u (writeFile rootInvPath (w.enc (session w inv s).obj.inv) ++
        (writeFile (rootSidecarPath (session w inv s).obj.inv.digestAlg)
          (sidecarText (f (w.enc (session w inv s).obj.inv))) ++ extWrites s.exts)) := by
      rw [← List.append_assoc]; exact hu
    rcases CrashPrefix.append hu' with h1 | ⟨v, hv, rfl⟩
    · rcases crash_writeFile h1 with rfl | rfl | ⟨b1, b2, hb, rfl⟩
      · rw [List.append_nil] at hroot
        exact absurd (hopen _ (CrashPrefix.refl _)) hroot
      · have hmg : mget (applyOps fs ((sessionOpen w inv s).obj.trace ++ [.create rootInvPath])) rootInvPath = some [] := by
          rw [applyOps_append]; simp [applyOps, FsOp.apply]
        by_cases h0 : w.enc (session w inv s).obj.inv = []
        · exact Or.inr (by rw [hmg, h0])
        · exact Or.inl ⟨[], _, h0, rfl, hmg⟩
      · have hmg : mget (applyOps fs ((sessionOpen w inv s).obj.trace ++
            [.create rootInvPath, .append rootInvPath b1])) rootInvPath = some b1 := by
          rw [applyOps_append]; exact mget_writeFile _ _ _
        by_cases h0 : b2 = []
        · rw [h0, List.append_nil] at hb
          exact Or.inr (by rw [hmg, hb])
        · exact Or.inl ⟨b1, b2, h0, hb, hmg⟩
    · right
      rw [applyOps_append, applyOps_append, mget_applyOps_ne, mget_writeFile]
      intro op hop
      obtain ⟨op', h1, h2⟩ := hv.path hop
      rw [← h2]
      rcases List.mem_append.1 h1 with h1 | h1
      · rw [mem_writeFile_path h1]; exact (root_ne_sidecar _).symm
      · obtain ⟨n, hn⟩ := mem_extWrites_path h1
        rw [hn]; exact ne_of_head (head_ext n) head_rootInv (by decide)

/-- what loading a complete new root inventory gives -/
theorem load_written {w : World} (hc : Codec w) (env : Env) {inv : Inv} {n : Nat} {s : Session} (h : WF inv n) (hk : FixKeys inv)
    (he : (session w inv s).err = none) (hm : (session w inv s).obj.inv.modified = true)
    (hne : NoEmptyPath (session w inv s).obj.inv) :
    ∃ i : Inv, (session w inv s).obj.inv.manifest.Perm i.manifest ∧ ∀ a b,
      mget a rootInvPath = some (w.enc (session w inv s).obj.inv) → ∃ g, loadRootAt w env a b = .ok (i, g) := by
  obtain ⟨f, t0, g1, g2, g3, g4, g5⟩ := session_stored h he hm
  obtain ⟨k1, k2, k3, _, _⟩ := g5.facts (by omega) hk
  rw [← g2] at k1 k2 k3
  obtain ⟨r, hd, hr⟩ := hc.roundTrip _ k1 k2 k3
  obtain ⟨x, hx⟩ := finalize_stored (env := env) hr hne
  have halg : r.inv.digestAlg = (session w inv s).obj.inv.digestAlg := hr.digestAlg.symm
  refine ⟨{ x.1 with modified := false, writeable := false }, by rw [finalize_inv hx]; exact hr.manifest, fun a b hab => ?_⟩
  obtain ⟨g, hg⟩ : ∃ g, sidecarFnd w b (rootSidecarPath r.inv.digestAlg) r.inv.digestAlg
      (w.enc (session w inv s).obj.inv) = .ok g := by
    unfold sidecarFnd
    rw [halg, g1]
    split
    · exact ⟨_, rfl⟩
    · split
      · exact ⟨_, rfl⟩
      · exact ⟨_, rfl⟩
  refine ⟨x.2 ++ g, ?_⟩
  unfold loadRootAt
  simp only [hab, hd, hx, res_bind_ok, hg]

theorem versionFile_apart {inv : Inv} {n : Nat} {p q : Str} (h : VersionFile inv n p)
    (hq : q = rootInvPath ∨ (∃ alg, q = rootSidecarPath alg) ∨ ∃ x, q = extPath x) : q ≠ p := by
  obtain ⟨k, _, _, rest, rfl⟩ := h
  have hv : (verName inv.paddingLength k ++ '/' :: rest).head? = some 'v' := by
    have := verName_head inv.paddingLength k
    cases hh : verName inv.paddingLength k with
    | nil => rw [hh] at this; cases this
    | cons c l => rw [hh] at this; exact this
  rcases hq with rfl | ⟨alg, rfl⟩ | ⟨x, rfl⟩
  · exact ne_of_head head_rootInv hv (by decide)
  · exact ne_of_head (head_rootSidecar alg) hv (by decide)
  · exact ne_of_head (head_ext x) hv (by decide)

/-- **C136** unless the root inventory is read while only a part of it is written: the extraction is exactly the one before
the session or exactly the one after it.  Missing: half of the new inventory may be read (`C136_full_fails`). -/
theorem C136_before_or_after_partial {w : World} (hc : Codec w) {env : Env} {fs a : FS} {inv : Inv} {n : Nat} {s : Session}
    {t : List FsOp} {F : List Fnd} {view : Nat → FS} (h0 : Sound inv n) (hk : FixKeys inv) (hs : SafeNames w s)
    (hh : w.hash inv.digestAlg ≠ none) (hl : loadRoot w env fs = .ok (inv, F)) (hne : NoEmptyPath (session w inv s).obj.inv)
    (ht : CrashPrefix t (session w inv s).obj.trace) (hv : ∀ k, Since w inv fs s t (view k)) :
    (∃ b1 b2, b2 ≠ [] ∧ w.enc (session w inv s).obj.inv = b1 ++ b2 ∧ mget (applyOps fs t) rootInvPath = some b1) ∨
    ∃ i g, loadRootAt w env (applyOps fs t) a = .ok (i, g) ∧
      ((i = inv ∧ ∀ xp v wm, extractAt w i view xp v wm = extract w inv fs xp v wm) ∨
        ((∃ g', loadRoot w env (applyOps fs (session w inv s).obj.trace) = .ok (i, g')) ∧
          ∀ xp v wm, extractAt w i view xp v wm = extract w i (applyOps fs (session w inv s).obj.trace) xp v wm)) := by
  by_cases hroot : ∀ op ∈ t, op.path ≠ rootInvPath
  · right
    obtain ⟨g, hg⟩ := loadRootAt_ok (a := applyOps fs t) (b := a) hl hh (mget_applyOps_ne hroot)
    exact ⟨inv, g, hg, Or.inl ⟨rfl, extractAt_eq (fun k _ hp => since_keeps h0 hs (hv k) hp)⟩⟩
  by_cases hdone : (session w inv s).err = none ∧ (session w inv s).obj.inv.modified = true
  swap
  · refine absurd (fun op hop => ?_) hroot
    obtain ⟨op', h1, h2⟩ := ht.path hop
    rw [← h2]; exact session_keeps_root h0.wf h0.cdir hs hdone op' h1
  obtain ⟨he, hm⟩ := hdone
  obtain ⟨_, hw | hw⟩ := root_written h0.wf h0.cdir hs he hm ht hroot fs
  · exact Or.inl hw
  right
  obtain ⟨i, hi, hload⟩ := load_written hc env h0.wf hk he hm hne
  obtain ⟨g, hg⟩ := hload (applyOps fs t) a hw
  have hrt : ∀ t', CrashPrefix t t' → ¬ ∀ op ∈ t', op.path ≠ rootInvPath := by
    intro t' h1 h2
    exact hroot (fun op hop => by
      obtain ⟨op', k1, k2⟩ := h1.path hop
      rw [← k2]; exact h2 op' k1)
  obtain ⟨m, hS, _, _, _, _, _⟩ := session_kept h0 hs he
  have hfin : ∀ t', CrashPrefix t t' → CrashPrefix t' (session w inv s).obj.trace → ∀ p, Listed (session w inv s).obj.inv p →
      mget (applyOps fs t') p = mget (applyOps fs (sessionOpen w inv s).obj.trace) p := by
    intro t' h1 h2 p hp
    obtain ⟨⟨u, rfl, hu⟩, _⟩ := root_written h0.wf h0.cdir hs he hm h2 (hrt t' h1) fs
    rw [applyOps_append]
    exact mget_applyOps_ne (fun op hop => versionFile_apart (hS.files p hp) (hu op hop))
  obtain ⟨g', hg'⟩ : ∃ g', loadRootAt w env (applyOps fs (session w inv s).obj.trace)
      (applyOps fs (session w inv s).obj.trace) = .ok (i, g') := by
    refine hload _ _ ?_
    obtain ⟨f, t0, g1, g2, g3, g4, g5⟩ := session_stored h0.wf he hm
    rw [g4, applyOps_append]
    unfold rootWrites
    rw [List.append_assoc, applyOps_append, mget_applyOps_ne, mget_writeFile]
    intro op hop
    rcases List.mem_append.1 hop with h1 | h1
    · rw [mem_writeFile_path h1]; exact (root_ne_sidecar _).symm
    · obtain ⟨n, hn⟩ := mem_extWrites_path h1
      rw [hn]; exact ne_of_head (head_ext n) head_rootInv (by decide)
  refine ⟨i, g, hg, Or.inr ⟨⟨g', hg'⟩, extractAt_eq (fun k p hp => ?_)⟩⟩
  have hp1 : Listed (session w inv s).obj.inv p := by
    obtain ⟨d, l, hd, hpl⟩ := hp
    exact ⟨d, l, hi.mem_iff.2 hd, hpl⟩
  rw [hfin _ ht (CrashPrefix.refl _) p hp1]
  have hvk := hv k
  generalize view k = V at hvk ⊢
  cases hvk with
  | running t' h1 h2 => exact hfin t' h1 h2 p hp1
  | failed t' h1 h2 h3 _ => exact absurd h3 (hrt t' h1)
  | done i' _ _ hsame hmom =>
    obtain ⟨b1, b2⟩ := hS.reload hsame
    rw [moment_keeps b1 hmom ((b2 fs).listed hS.keys hp1)]
    exact hfin _ ht (CrashPrefix.refl _) p hp1

/-- **C136** for an old version: it extracts in the middle of an update as before. -/
theorem C136_old_version_partial {w : World} (hc : Codec w) (hx : HexHash w) {env : Env} {fs a : FS} {inv : Inv} {n p : Nat}
    {s : Session} {t : List FsOp} {F : List Fnd} {view : Nat → FS} {v : Str} {xp : ExtractPath} {wm : Bool} (h0 : Sound inv n)
    (hk : FixKeys inv) (hs : SafeNames w s) (hh : w.hash inv.digestAlg ≠ none) (hl : loadRoot w env fs = .ok (inv, F))
    (hne : NoEmptyPath (session w inv s).obj.inv) (hp : inv.paddingLength = (p : Int))
    (hu : Uniform p (mkeys (session w inv s).obj.inv.versions)) (ht : CrashPrefix t (session w inv s).obj.trace)
    (hv : ∀ k, Since w inv fs s t (view k)) (hok : (extract w inv fs xp v wm).err = none) {i : Inv} {g : List Fnd}
    (hr : loadRootAt w env (applyOps fs t) a = .ok (i, g))
    (hcut : ∀ b1 b2, b2 ≠ [] → w.enc (session w inv s).obj.inv = b1 ++ b2 → w.dec b1 = none) :
    (extractAt w i view xp (selectVersion inv v) wm).err = none ∧
    (extract w inv fs xp v wm).lines.Perm (extractAt w i view xp (selectVersion inv v) wm).lines ∧
    ((∀ p d p' d' x, HasFile inv (selectVersion inv v) p d → HasFile inv (selectVersion inv v) p' d' →
        xp p = .ok (some x) → xp p' = .ok (some x) → d = d') →
      ∀ out x, (wm = true → x ≠ manifestName inv.digestAlg) →
        mget (applyOps out (extractAt w i view xp (selectVersion inv v) wm).trace) x =
          mget (applyOps out (extract w inv fs xp v wm).trace) x) := by
  rcases C136_before_or_after_partial hc (a := a) h0 hk hs hh hl hne ht hv with ⟨b1, b2, h1, h2, h3⟩ | ⟨j, g', h1, h2⟩
  · unfold loadRootAt at hr
    rw [h3] at hr
    simp only [hcut b1 b2 h1 h2] at hr
    cases hr
  rw [hr] at h1
  cases h1
  rcases h2 with ⟨rfl, h2⟩ | ⟨⟨g', h1⟩, h2⟩
  · rw [h2]
    exact C29_old_versions_extract_partial h0 .now hok
  · rw [h2]
    by_cases hdone : (session w inv s).err = none ∧ (session w inv s).obj.inv.modified = true
    · obtain ⟨i', f', k1, k2, _⟩ := C24_stored_inventories_load_partial hc hx (env := env) (fs := fs) h0.wf hk hp hdone.1 hdone.2
        hne hu
      rw [k1] at h1
      cases h1
      exact C29_old_versions_extract_partial h0 (.completed s _ .now hs hdone.1 hdone.2 k2) hok
    · have hroot := session_keeps_root h0.wf h0.cdir hs hdone
      obtain ⟨g2, k1⟩ := loadRootAt_ok (a := applyOps fs (session w inv s).obj.trace)
        (b := applyOps fs (session w inv s).obj.trace) hl hh (mget_applyOps_ne hroot)
      rw [loadRootAt_self, h1] at k1
      cases k1
      exact C29_old_versions_extract_partial h0 (.aborted s _ .now hs (CrashPrefix.refl _) hroot) hok

/-! ## Examples -/

/-- contents `1` to `4` have the digests `d1` to `d4`; inventories are kept as they are -/
noncomputable def slowWorld : World := { exWorld4 with enc := exEnc, dec := exDec (fun t => t), time := fun t => t }

/-- the object with its content -/
noncomputable def slowDisk : FS := (rootInvPath, exEnc exInv) :: exDisk4

/-- a session that adds the two contents `3` and `4` -/
def slowSession : Session := exTwice "c".toList "e".toList

theorem slow_codec : Codec slowWorld := ⟨(codecWorld_codec fun t => t).roundTrip, (codecWorld_codec fun t => t).empty⟩

theorem slow_hex : HexHash slowWorld := by
  intro alg h b hh
  have hh : (if alg = "sha512".toList then some exHash4 else none) = some h := hh
  split at hh
  · cases hh
    unfold exHash4
    split
    · decide
    · split
      · decide
      · split <;> decide
  · cases hh

theorem slow_load : ∃ f, loadRoot slowWorld exEnv slowDisk = .ok (exInv, f) := by
  have h1 : (finalize exEnv (rawOf (stampInv (fun t => t) exInv))).toOption.any
      (fun x => decide ({ x.1 with modified := false, writeable := false } = exInv)) = true := by decide
  cases hf : finalize exEnv (rawOf (stampInv (fun t => t) exInv)) with
  | error e => rw [hf] at h1; cases h1
  | ok x =>
    rw [hf] at h1
    have h1 : { x.1 with modified := false, writeable := false } = exInv := by simpa [Except.toOption] using h1
    have hs : sidecarFnd slowWorld slowDisk (rootSidecarPath "sha512".toList) "sha512".toList (exEnc exInv) =
        .ok [err 58 [rootSidecarPath "sha512".toList]] := rfl
    unfold loadRoot
    have h3 : mget slowDisk rootInvPath = some (exEnc exInv) := rfl
    have h4 : slowWorld.dec (exEnc exInv) = some (rawOf (stampInv (fun t => t) exInv)) := exDec_enc _ _
    simp only [h3, h4, hf, res_bind_ok]
    have h5 : (rawOf (stampInv (fun t => t) exInv)).inv.digestAlg = "sha512".toList := rfl
    rw [h5, hs, res_bind_ok, h1]
    exact ⟨_, rfl⟩

/-- the inventory after the session -/
def slowInv : Inv := (session exWorld4 exInv slowSession).obj.inv

theorem slow_ok : (session slowWorld exInv slowSession).err = none ∧ (session slowWorld exInv slowSession).obj.inv = slowInv := by
  constructor
  · decide
  · decide

theorem slowInv_noEmpty : NoEmptyPath slowInv := noEmptyPath_of (by decide) (by decide) (by decide)

theorem slow_safe : SafeNames slowWorld slowSession := exTwice_safe ⟨0, by decide⟩ ⟨0, by decide⟩

theorem slowInv_uniform : Uniform 0 (mkeys slowInv.versions) := by
  intro k hk
  have e : mkeys slowInv.versions = ["v2".toList, "v1".toList, "v3".toList] := by decide
  rw [e] at hk
  simp only [List.mem_cons, List.not_mem_nil, or_false] at hk
  rcases hk with rfl | rfl | rfl
  · exact ⟨2, by decide, by simp, by decide⟩
  · exact ⟨1, by decide, by simp, by decide⟩
  · exact ⟨3, by decide, by simp, by decide⟩

/-- part of an encoded inventory cannot be decoded -/
theorem slow_cut (inv : Inv) (b1 b2 : Bytes) (h : b2 ≠ []) (he : slowWorld.enc inv = b1 ++ b2) : slowWorld.dec b1 = none := by
  have he : List.replicate (exCode inv) 0 ++ [1] = b1 ++ b2 := he
  show exDec (fun t => t) b1 = none
  unfold exDec
  rw [dif_neg]
  rintro ⟨i, hi⟩
  subst hi
  unfold exEnc at he
  obtain ⟨x, b2, rfl⟩ := List.exists_cons_of_ne_nil h
  have h1 : (1 : UInt8) ∈ List.replicate (exCode inv) 0 := by
    have hl := congrArg List.dropLast he
    rw [List.dropLast_concat, List.dropLast_append_of_ne_nil (by simp)] at hl
    rw [hl]; simp
  exact absurd (List.eq_of_mem_replicate h1) (by decide)

/-- Version 2 extracts with the inventory read before the session and the contents read while it is at work. -/
example : (extractAt slowWorld exInv (fun k => applyOps slowDisk ((session slowWorld exInv slowSession).obj.trace.take k))
    (fun p => .ok (some p)) "v2".toList true).err = none := by
  rw [C136_contents exInv_sound (fs := slowDisk) (fun k => ⟨exInv, slowDisk, slowSession, _, .now, slow_safe, CrashPrefix.take _ _, rfl⟩)]
  decide

/-- whenever the inventory is read while the session is at work, and whenever the contents: if it loads, version 2 extracts -/
example {k : Nat} {view : Nat → FS} {a : FS}
    (hv : ∀ j, Since slowWorld exInv slowDisk slowSession ((session slowWorld exInv slowSession).obj.trace.take k) (view j))
    {i : Inv} {g : List Fnd}
    (hr : loadRootAt slowWorld exEnv (applyOps slowDisk ((session slowWorld exInv slowSession).obj.trace.take k)) a = .ok (i, g)) :
    (extractAt slowWorld i view (fun p => .ok (some p)) "v2".toList true).err = none := by
  obtain ⟨f, hl⟩ := slow_load
  exact (C136_old_version_partial (v := "v2".toList) (p := 0) slow_codec slow_hex exInv_sound exInv_fixKeys slow_safe
    (by intro h; cases h) hl (by rw [slow_ok.2]; exact slowInv_noEmpty) rfl (by rw [slow_ok.2]; exact slowInv_uniform)
    (CrashPrefix.take _ _) hv (by decide) hr (slow_cut _)).1

/-- **C136 fails**: the new root inventory has been created but not yet written; nothing can be read. -/
theorem C136_full_fails : ¬ C136_full := by
  intro hf
  obtain ⟨f, hl⟩ := slow_load
  obtain ⟨f1, t0, g1, g2, g3, g4, g5⟩ := session_stored (w := slowWorld) (s := slowSession) exInv_wf2 slow_ok.1
    (by rw [slow_ok.2]; decide)
  have ht : CrashPrefix ((sessionOpen slowWorld exInv slowSession).obj.trace ++ [.create rootInvPath])
      (session slowWorld exInv slowSession).obj.trace := by
    rw [g4]
    exact (CrashPrefix.next _ (CrashPrefix.stop _)).append_left _
  obtain ⟨i, g, h1, _⟩ := hf slowWorld exEnv slowDisk _ exInv 2 slowSession _ f
    (fun _ => applyOps slowDisk ((sessionOpen slowWorld exInv slowSession).obj.trace ++ [.create rootInvPath]))
    slow_codec slow_hex exInv_sound exInv_fixKeys slow_safe (by intro h; cases h) hl
    (by rw [slow_ok.2]; exact slowInv_noEmpty) ht (.running _ (CrashPrefix.refl _) ht) (fun _ => .running _ (CrashPrefix.refl _) ht)
  unfold loadRootAt at h1
  have : mget (applyOps slowDisk ((sessionOpen slowWorld exInv slowSession).obj.trace ++ [.create rootInvPath])) rootInvPath =
      some [] := by
    rw [applyOps_append]; simp [applyOps, FsOp.apply]
  rw [this] at h1
  simp only [slow_codec.empty] at h1
  cases h1

end Gocfl
