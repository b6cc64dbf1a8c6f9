import Verif.Props.Extract

/-!
# Extraction in any map order (C66) and after any later history (C29)
-/

namespace Gocfl

/-! ## Extraction of the same state from two places -/

theorem extractOne_agree {hash : Option (Bytes → Str)} {src src' : FS} {xp : ExtractPath} {man man' : DMap}
    {e : Str × List Str}
    (h : ∀ m ms, mget man e.1 = some (m :: ms) → ∃ ms', mget man' e.1 = some (m :: ms') ∧ mget src' m = mget src m)
    (hok : (extractOne hash src xp man e).err = none) :
    extractOne hash src' xp man' e = extractOne hash src xp man e := by
  obtain ⟨d, names⟩ := e
  unfold extractOne at hok ⊢
  simp only [extractState] at hok ⊢
  cases hm : mget man d with
  | none => rw [hm] at hok; simp at hok
  | some is =>
    cases is with
    | nil => rw [hm] at hok; simp at hok
    | cons m ms =>
      obtain ⟨ms', h1, h2⟩ := h m ms hm
      rw [h1]
      have : ∀ names, extractNames hash src' xp (m :: ms') d names = extractNames hash src xp (m :: ms) d names := by
        intro names
        induction names with
        | nil => rfl
        | cons n names ih =>
          unfold extractNames
          rw [ih]
          unfold copyOut
          simp only [h2]
      simp only [this]

/-- what is in the target after the files of `st` were extracted, if extraction names are distinct -/
theorem deliver_perm {fs : FS} {ds ds' : List Delivery} (hp : ds.Perm ds')
    (hd : ∀ y ∈ ds, ∀ z ∈ ds, y.name = z.name → y.data = z.data) (x : Str) :
    mget (applyOps fs (deliver ds)) x = mget (applyOps fs (deliver ds')) x := by
  by_cases hx : x ∈ ds.map Delivery.name
  · have hx' : x ∈ ds'.map Delivery.name := (hp.map _).mem_iff.1 hx
    obtain ⟨y, hy, h1, h2⟩ := deliver_last (fs := fs) hx
    obtain ⟨z, hz, h3, h4⟩ := deliver_last (fs := fs) hx'
    rw [h2, h4, hd y hy z (hp.mem_iff.2 hz) (h1.trans h3.symm)]
  · have hx' : x ∉ ds'.map Delivery.name := fun h => hx ((hp.map _).mem_iff.2 h)
    rw [deliver_other hx, deliver_other hx']

/-- `inv'` with files `src'` records version `v` as `inv` with files `src` does (for extraction): same digest
algorithm, same state in any order, the same first content path with the same content for every digest. -/
structure SameForExtract (inv inv' : Inv) (src src' : FS) (v v' : Str) : Prop where
  alg : inv'.digestAlg = inv.digestAlg
  state : ∀ ver, mget inv.versions (selectVersion inv v) = some ver →
    ∃ ver', mget inv'.versions (selectVersion inv' v') = some ver' ∧ ver.state.Perm ver'.state
  content : ∀ d m ms, mget inv.manifest d = some (m :: ms) →
    ∃ ms', mget inv'.manifest d = some (m :: ms') ∧ mget src' m = mget src m

/-- the deliveries for one digest -/
noncomputable def deliveriesOf (hash : Option (Bytes → Str)) (src : FS) (xp : ExtractPath) (man : DMap)
    (e : Str × List Str) : List Delivery :=
  open Classical in
  if h : (extractOne hash src xp man e).err = none then Classical.choose (extractOne_ok h) else []

theorem deliveriesOf_spec {hash : Option (Bytes → Str)} {src : FS} {xp : ExtractPath} {man : DMap} {e : Str × List Str}
    (h : (extractOne hash src xp man e).err = none) :
    (extractOne hash src xp man e).trace = deliver (deliveriesOf hash src xp man e) ∧
      (extractOne hash src xp man e).lines = (deliveriesOf hash src xp man e).map (fun x => (x.digest, x.name)) ∧
      (∀ x ∈ deliveriesOf hash src xp man e, RightDelivery hash src xp man [e] x) := by
  unfold deliveriesOf
  rw [dif_pos h]
  obtain ⟨h1, h2, h3, _⟩ := Classical.choose_spec (extractOne_ok h)
  exact ⟨h1, h2, fun x hx => (h3 x hx).2⟩

theorem extractState_blocks {hash : Option (Bytes → Str)} {src src' : FS} {xp : ExtractPath} {man man' st : DMap}
    (h : ∀ e ∈ st, (extractOne hash src xp man e).err = none)
    (ha : ∀ e ∈ st, extractOne hash src' xp man' e = extractOne hash src xp man e) :
    (extractState hash src' xp man' st).err = none ∧
    (extractState hash src' xp man' st).trace = deliver (st.flatMap (deliveriesOf hash src xp man)) ∧
    (extractState hash src' xp man' st).lines =
      (st.flatMap (deliveriesOf hash src xp man)).map (fun x => (x.digest, x.name)) := by
  have h' : (extractState hash src' xp man' st).err = none :=
    extractState_err_iff.2 (fun e he => by rw [ha e he]; exact h e he)
  obtain ⟨h1, h2⟩ := extractState_ok h'
  refine ⟨h', ?_, ?_⟩
  · rw [h1]
    unfold deliver
    rw [List.flatMap_assoc]
    refine List.flatMap_congr (fun e he => ?_)
    rw [ha e he]; exact (deliveriesOf_spec (h e he)).1
  · rw [h2, List.map_flatMap]
    refine List.flatMap_congr (fun e he => ?_)
    rw [ha e he]; exact (deliveriesOf_spec (h e he)).2.1

/-- If extraction succeeds, it succeeds from the other place, writes the same manifest lines in some order, and
(if the names do not collide) leaves the same files. -/
theorem extract_same {w : World} {inv inv' : Inv} {src src' : FS} {v v' : Str} {xp : ExtractPath} {wm : Bool}
    (h : SameForExtract inv inv' src src' v v') (hok : (extract w inv src xp v wm).err = none) :
    (extract w inv' src' xp v' wm).err = none ∧
    (extract w inv src xp v wm).lines.Perm (extract w inv' src' xp v' wm).lines ∧
    ((∀ p d p' d' x, HasFile inv (selectVersion inv v) p d → HasFile inv (selectVersion inv v) p' d' →
        xp p = .ok (some x) → xp p' = .ok (some x) → d = d') →
      ∀ fs x, (wm = true → x ≠ manifestName inv.digestAlg) →
        mget (applyOps fs (extract w inv' src' xp v' wm).trace) x = mget (applyOps fs (extract w inv src xp v wm).trace) x) := by
  obtain ⟨ver, _, hv, hst, _⟩ := extract_ok hok
  obtain ⟨ver', hv', hperm⟩ := h.state ver hv
  have herr := extractState_err_iff.1 hst
  obtain ⟨_, a1, a2⟩ := extractState_blocks (src' := src) (man' := inv.manifest) herr (fun _ _ => rfl)
  have herr' : ∀ e ∈ ver'.state, (extractOne (w.hash inv.digestAlg) src xp inv.manifest e).err = none :=
    fun e he => herr e (hperm.mem_iff.2 he)
  obtain ⟨b0, b1, b2⟩ := extractState_blocks (src' := src') (man' := inv'.manifest) herr'
    (fun e he => extractOne_agree (fun m ms hm => h.content _ m ms hm) (herr' e he))
  have e1 : extract w inv src xp v wm = ⟨(extractState (w.hash inv.digestAlg) src xp inv.manifest ver.state).trace ++
      manifestWrite inv.digestAlg wm (extractState (w.hash inv.digestAlg) src xp inv.manifest ver.state).lines,
      (extractState (w.hash inv.digestAlg) src xp inv.manifest ver.state).lines, none⟩ := by
    unfold extract; rw [hv]; simp only [hst]; rfl
  have e2 : extract w inv' src' xp v' wm =
      ⟨(extractState (w.hash inv.digestAlg) src' xp inv'.manifest ver'.state).trace ++
      manifestWrite inv.digestAlg wm (extractState (w.hash inv.digestAlg) src' xp inv'.manifest ver'.state).lines,
      (extractState (w.hash inv.digestAlg) src' xp inv'.manifest ver'.state).lines, none⟩ := by
    unfold extract; rw [hv']; simp only [h.alg, b0]; rfl
  have hP : (ver.state.flatMap (deliveriesOf (w.hash inv.digestAlg) src xp inv.manifest)).Perm
      (ver'.state.flatMap (deliveriesOf (w.hash inv.digestAlg) src xp inv.manifest)) := hperm.flatMap_right _
  rw [e1, e2]
  refine ⟨rfl, ?_, ?_⟩
  · show (extractState _ _ _ _ _).lines.Perm (extractState _ _ _ _ _).lines
    rw [a2, b2]
    exact hP.map _
  · intro hdist fs x hx
    have hmw : ∀ (g : FS) lines, mget (applyOps g (manifestWrite inv.digestAlg wm lines)) x = mget g x := by
      intro g lines
      unfold manifestWrite
      cases wm with
      | false => rfl
      | true => exact mget_writeFile_ne _ _ (fun hc => hx rfl hc.symm)
    show mget (applyOps fs (_ ++ _)) x = mget (applyOps fs (_ ++ _)) x
    rw [applyOps_append, applyOps_append, hmw, hmw, a1, b1]
    refine (deliver_perm hP ?_ x).symm
    have hr : ∀ y ∈ ver.state.flatMap (deliveriesOf (w.hash inv.digestAlg) src xp inv.manifest),
        RightDelivery (w.hash inv.digestAlg) src xp inv.manifest ver.state y := by
      intro y hy
      obtain ⟨e, he, hy⟩ := List.mem_flatMap.1 hy
      have hr := (deliveriesOf_spec (herr e he)).2.2 y hy
      obtain ⟨names, hn, hp⟩ := hr.state
      rw [List.mem_singleton] at hn
      exact ⟨⟨names, by rw [hn]; exact he, hp⟩, hr.name, hr.content, hr.digest⟩
    intro y hy z hz hyz
    have ry := hr y hy
    have rz := hr z hz
    have hd : y.digest = z.digest :=
      hdist _ _ _ _ y.name (ry.hasFile hv) (rz.hasFile hv) ry.name (by rw [hyz]; exact rz.name)
    obtain ⟨m, ms, k1, k2⟩ := ry.content
    obtain ⟨m', ms', k3, k4⟩ := rz.content
    rw [hd, k3] at k1
    cases k1
    rw [k2] at k4
    exact Option.some.inj k4

/-! ## C66 -/

/-- **C66.** Extraction does not depend on the order in which the maps of the inventory are iterated: it succeeds or
fails alike, the manifest has the same lines, and the files extracted are the same (unless two paths with different
digests share an extraction name). -/
theorem C66_order_independent {w : World} {inv inv' : Inv} {src : FS} {v : Str} {xp : ExtractPath} {wm : Bool}
    (hs : SameInv inv inv') (hn : (mkeys inv.versions).Nodup) (hm : (mkeys inv.manifest).Nodup) :
    ((extract w inv src xp v wm).err = none ↔ (extract w inv' src xp v wm).err = none) ∧
    ((extract w inv src xp v wm).err = none →
      (extract w inv src xp v wm).lines.Perm (extract w inv' src xp v wm).lines ∧
      ((∀ p d p' d' x, HasFile inv (selectVersion inv v) p d → HasFile inv (selectVersion inv v) p' d' →
          xp p = .ok (some x) → xp p' = .ok (some x) → d = d') →
        ∀ fs x, (wm = true → x ≠ manifestName inv.digestAlg) →
          mget (applyOps fs (extract w inv' src xp v wm).trace) x =
            mget (applyOps fs (extract w inv src xp v wm).trace) x)) := by
  have hn' : (mkeys inv'.versions).Nodup := hs.versionKeys.nodup_iff.1 hn
  have hsel : selectVersion inv' v = selectVersion inv v := by unfold selectVersion; rw [hs.head]
  have hst : ∀ ver, mget inv.versions (selectVersion inv v) = some ver →
      ∃ ver', mget inv'.versions (selectVersion inv' v) = some ver' ∧ ver.state.Perm ver'.state := by
    intro ver hver
    obtain ⟨ver', h1, h2⟩ := hs.versions _ _ (mem_of_mget hver)
    exact ⟨ver', by rw [hsel]; exact mget_of_mem hn' h1, h2.2.2.2.2⟩
  have h1 : SameForExtract inv inv' src src v v :=
    ⟨hs.digestAlg.symm, hst, fun d m ms hd => ⟨ms, by rw [← mget_perm hs.manifest hm]; exact hd, rfl⟩⟩
  have h2 : SameForExtract inv' inv src src v v := by
    refine ⟨hs.digestAlg, ?_, fun d m ms hd => ⟨ms, by rw [mget_perm hs.manifest hm]; exact hd, rfl⟩⟩
    intro ver' hver'
    have hk : selectVersion inv v ∈ mkeys inv.versions := by
      rw [hs.versionKeys.mem_iff, ← hsel]
      exact mem_mkeys_iff.2 ⟨ver', mem_of_mget hver'⟩
    obtain ⟨ver, hver⟩ := mem_mkeys_iff.1 hk
    have hver := mget_of_mem hn hver
    obtain ⟨ver2, k1, k2⟩ := hst ver hver
    rw [hver'] at k1
    cases k1
    exact ⟨ver, hver, k2.symm⟩
  refine ⟨⟨fun h => (extract_same h1 h).1, fun h => (extract_same h2 h).1⟩, fun h => ?_⟩
  exact (extract_same h1 h).2

/-! ## C29 -/

/-- An object as the program leaves it: versions `1..n`, no double map keys, a usable content directory, content in
the directories of the versions only. -/
structure Sound (inv : Inv) (n : Nat) : Prop where
  wf : WF inv n
  keys : (mkeys inv.manifest).Nodup
  cdir : ValidComp inv.contentDir
  files : ∀ p, Listed inv p → VersionFile inv n p

/-- What can happen to an object (inventory and files): any number of sessions that complete and store an inventory
which is then loaded again (maps in any order, time stamps cut), and of sessions that crash, fail or change nothing,
without writing the root inventory. -/
inductive Later (w : World) (Safe : Session → Prop) (inv0 : Inv) (fs0 : FS) : Inv → FS → Prop
  | now : Later w Safe inv0 fs0 inv0 fs0
  | aborted {inv : Inv} {fs : FS} (s : Session) (t' : List FsOp) : Later w Safe inv0 fs0 inv fs → Safe s →
      CrashPrefix t' (session w inv s).obj.trace → (∀ op ∈ t', op.path ≠ rootInvPath) →
      Later w Safe inv0 fs0 inv (applyOps fs t')
  | completed {inv : Inv} {fs : FS} (s : Session) (i : Inv) : Later w Safe inv0 fs0 inv fs → Safe s →
      (session w inv s).err = none → (session w inv s).obj.inv.modified = true →
      SameInv (stampInv w.time (session w inv s).obj.inv) i →
      Later w Safe inv0 fs0 i (applyOps fs (session w inv s).obj.trace)

theorem step_manifest_nodup {inv inv' : Inv} {op : Op} (h : (mkeys inv.manifest).Nodup) (hs : step inv op = .ok inv') :
    (mkeys inv'.manifest).Nodup := by
  cases op with
  | newVersion m u a t => rw [(newVersion_frame hs).2.2.2.2.2.1]; exact h
  | add ns mp cs =>
    obtain ⟨dig, _, hs⟩ := addFile_ok hs
    refine foldlM_inv (P := fun i => (mkeys i.manifest).Nodup) (fun b a b' _ hb hab => ?_) _ _ ?_ hs
    · obtain ⟨_, _, _, _, _, _, _, hm, _, _⟩ := addName_ok hab
      rw [hm]; exact manAdd_nodup hb _ _
    · rw [(addFixity_fold _ _ _).2.2.1]; exact h
  | delete p => rw [deleteFile_manifest hs]; exact h
  | rename a b =>
    obtain ⟨s, _, rfl⟩ := renameFile_ok hs
    rw [setHeadState_manifest]; exact h
  | copy d c =>
    obtain ⟨_, s, _, ⟨_, rfl⟩ | ⟨_, rfl⟩⟩ := copyFile_ok hs
    · exact h
    · rw [setHeadState_manifest]; exact h
  | echo ex pre => rw [echoDelete_manifest hs]; exact h

theorem run_manifest_nodup {inv inv' : Inv} {ops : List Op} (h : (mkeys inv.manifest).Nodup) (hr : run inv ops = .ok inv') :
    (mkeys inv'.manifest).Nodup := by
  induction ops generalizing inv with
  | nil => cases hr; exact h
  | cons op ops ih =>
    obtain ⟨i, hi, hr⟩ := res_bind_eq_ok.1 hr
    exact ih (step_manifest_nodup h hi) hr

theorem VersionFile.mono {inv : Inv} {n m : Nat} {p : Str} (h : VersionFile inv n p) (hnm : n ≤ m) : VersionFile inv m p := by
  obtain ⟨k, h1, h2, h3⟩ := h
  exact ⟨k, h1, by omega, h3⟩

/-- the state of a session after its first version was opened as `i0` -/
structure Kept (inv i0 : Inv) (n : Nat) (o : Obj) : Prop where
  run : ∃ ops, run i0 ops = .ok o.inv
  wf : ∃ m, WF o.inv m ∧ n + 1 ≤ m ∧ ∀ p, Listed o.inv p → VersionFile inv m p
  cdir : o.inv.contentDirectory = inv.contentDirectory
  pad : o.inv.paddingLength = inv.paddingLength
  alg : o.inv.digestAlg = inv.digestAlg

theorem Kept.sameInv {inv i0 : Inv} {n : Nat} {o o' : Obj} (h : Kept inv i0 n o) (he : o'.inv = o.inv) : Kept inv i0 n o' := by
  obtain ⟨h1, h2, h3, h4, h5⟩ := h
  constructor <;> rw [he] <;> assumption

theorem Kept.step {w : World} {inv i0 : Inv} {n : Nat} {o o' : Obj} (h : Kept inv i0 n o)
    (hs : CallStep w (fun _ _ => True) o o')
    (hl : ∀ p, Listed o'.inv p → Listed o.inv p ∨ ∃ m, WF o.inv m ∧ n + 1 ≤ m ∧ VersionFile inv m p) : Kept inv i0 n o' := by
  obtain ⟨ops, h1⟩ := h.run
  obtain ⟨ops', h2, h3⟩ := hs.inv
  obtain ⟨m, k1, k2, k3⟩ := h.wf
  have hh := hs.headOnly
  refine ⟨⟨ops ++ ops', by rw [run_append, h1, res_bind_ok, h2]⟩, ⟨m, ?_, k2, ?_⟩, hh.cdir.trans h.cdir,
    hh.pad.trans h.pad, hh.alg.trans h.alg⟩
  · have := run_wf k1 h2; rw [h3] at this; exact this
  · intro p hp
    rcases hl p hp with hp | ⟨m', k4, _, k5⟩
    · exact k3 p hp
    · have h1 := k1.1.head_eq (by omega)
      have h2 := k4.1.head_eq (by omega)
      rw [h1] at h2
      have := verName_inj h2
      have : m = m' := by omega
      subst this
      exact k5

theorem kept_inv {w : World} {inv i0 : Inv} {n : Nat} (hc : ValidComp inv.contentDir) :
    SessionInv w (fun c => ∀ x ∈ c.uses, ∀ i, w.manifestPath x.1 x.2 = .ok i → InsideName i) (Kept inv i0 n) where
  call o c hs h := by
    refine h.step (runCall_step c (fun _ _ => trivial)) (fun p hp => ?_)
    rcases (tally_call (w := w) (o := o) c).man p hp with hp | hp
    · exact Or.inl hp
    · right
      obtain ⟨m, k1, k2, k3⟩ := h.wf
      refine ⟨m, k1, k2, m, by omega, Nat.le_refl _, ?_⟩
      obtain ⟨x, hx, hpx⟩ := List.mem_filterMap.1 hp
      have hx : x ∈ c.uses := by simpa [callsUses] using hx
      unfold targetOf at hpx
      cases hi : w.manifestPath x.1 x.2 with
      | error e => rw [hi] at hpx; cases hpx
      | ok j =>
        rw [hi] at hpx
        cases hpx
        obtain ⟨l, hl⟩ := hs x hx j hi
        have hh := k1.1.head_eq (by omega)
        have hcd : o.inv.contentDir = inv.contentDir := by unfold Inv.contentDir; rw [h.cdir]
        obtain ⟨cs, c1, c2, c3⟩ := C13_content_path_inside_partial (inv := o.inv) (by rw [hh]; exact verName_valid _ _)
          (by rw [hcd]; exact hc) hl
        refine ⟨joinWith '/' (o.inv.contentDir :: cs), ?_⟩
        rw [c3, joinWith_cons (by simp), hh, h.pad]
  echo o h := by
    refine h.step (w := w) echoIf_step (fun p hp => ?_)
    rcases (tally_echo (T := []) (w := w) (o := o)).man p hp with hp | hp
    · exact Or.inl hp
    · cases hp
  open_ o e i m u a t h hv := by
    obtain ⟨ops, h1⟩ := h.run
    obtain ⟨k, k1, k2, k3⟩ := h.wf
    obtain ⟨f1, f2, f3, _, _, f4, _⟩ := newVersion_frame hv
    refine ⟨⟨ops ++ [.newVersion m u a t], by rw [run_append, h1, res_bind_ok, run_single]; exact hv⟩,
      ⟨k + 1, step_wf (op := .newVersion m u a t) k1 hv, by omega, ?_⟩, f1.trans h.cdir, f2.trans h.pad, f3.trans h.alg⟩
    rintro p ⟨d, l, hd, hp⟩
    exact (k3 p ⟨d, l, by rw [← f4]; exact hd, hp⟩).mono (by omega)
  openErr o e h := h.sameInv rfl
  store o v r h := h.sameInv storeInventory_trace.1
  ext o n d h := h.sameInv rfl

theorem safe_calls {w : World} {s : Session} (h : SafeNames w s) :
    ∀ c ∈ s.calls, ∀ x ∈ c.uses, ∀ i, w.manifestPath x.1 x.2 = .ok i → InsideName i := by
  intro c hc x hx
  refine h x ?_
  simp only [Session.calls, List.mem_append, List.mem_flatMap] at hc
  simp only [Session.uses, callsUses, List.mem_append, List.mem_flatMap]
  rcases hc with ((hc | hc) | hc) | ⟨r, hr, hc⟩
  · exact Or.inl (Or.inl (Or.inl ⟨c, hc, hx⟩))
  · exact Or.inl (Or.inl (Or.inr ⟨c, hc, hx⟩))
  · exact Or.inl (Or.inr ⟨c, hc, hx⟩)
  · right
    refine ⟨r, hr, ?_⟩
    simp only [Round.calls, List.mem_append] at hc
    rcases hc with (hc | hc) | hc
    · exact Or.inl (Or.inl ⟨c, hc, hx⟩)
    · exact Or.inl (Or.inr ⟨c, hc, hx⟩)
    · exact Or.inr ⟨c, hc, hx⟩

/-- What one completed session keeps. -/
theorem session_kept {w : World} {inv : Inv} {n : Nat} {s : Session} (h : Sound inv n) (hs : SafeNames w s)
    (he : (session w inv s).err = none) :
    ∃ m, Sound (session w inv s).obj.inv m ∧ n ≤ m ∧
      (session w inv s).obj.inv.paddingLength = inv.paddingLength ∧
      (session w inv s).obj.inv.digestAlg = inv.digestAlg ∧
      (∀ v ∈ mkeys inv.versions, mget (session w inv s).obj.inv.versions v = mget inv.versions v) ∧
      (∀ d ms, mget inv.manifest d = some ms → ∃ ext, mget (session w inv s).obj.inv.manifest d = some (ms ++ ext)) := by
  cases hv : newVersion inv s.info.msg s.info.userName s.info.userAddress s.info.now with
  | error e => rw [session_eq_err hv] at he; cases he
  | ok i =>
    have hfr := newVersion_frame hv
    have hwf := newVersion_ok_gapFree h.wf.1 h.wf.2 hv
    have hk : Kept inv i n (session w inv s).obj := by
      rw [session_eq_rest hv]
      have h0 : Kept inv i n ⟨i, [], s.echo, []⟩ := by
        refine ⟨⟨[], rfl⟩, ⟨n + 1, hwf, Nat.le_refl _, ?_⟩, hfr.1, hfr.2.1, hfr.2.2.1⟩
        rintro p ⟨d, l, hd, hp⟩
        exact (h.files p ⟨d, l, by rw [← hfr.2.2.2.2.2.1]; exact hd, hp⟩).mono (by omega)
      exact (kept_inv h.cdir).rest h0 (safe_calls hs)
    obtain ⟨ops, hops⟩ := hk.run
    obtain ⟨m, k1, k2, k3⟩ := hk.wf
    have hman : (mkeys (session w inv s).obj.inv.manifest).Nodup :=
      run_manifest_nodup (by rw [hfr.2.2.2.2.2.1]; exact h.keys) hops
    refine ⟨m, ⟨k1, hman, ?_, ?_⟩, by omega, hk.pad, hk.alg, ?_, ?_⟩
    · have : (session w inv s).obj.inv.contentDir = inv.contentDir := by unfold Inv.contentDir; rw [hk.cdir]
      rw [this]; exact h.cdir
    · intro p hp
      obtain ⟨k, a1, a2, rest, a3⟩ := k3 p hp
      exact ⟨k, a1, a2, rest, by rw [hk.pad]; exact a3⟩
    · intro v hvk
      obtain ⟨b1, b2, b3⟩ := newVersion_keeps h.wf.1 h.wf.2 hv hvk
      rw [C01_non_head_versions_immutable hwf.1 hwf.2 hops b1 b2, b3]
    · intro d ms hd
      exact C12_manifest_only_grows hops (by rw [hfr.2.2.2.2.2.1]; exact hd)

/-- what an inventory keeps of an older one, together with the content -/
structure KeepsAll (inv inv' : Inv) (fs fs' : FS) : Prop where
  pad : inv'.paddingLength = inv.paddingLength
  alg : inv'.digestAlg = inv.digestAlg
  versions : ∀ v ver, mget inv.versions v = some ver →
    ∃ ver', mget inv'.versions v = some ver' ∧ ver.state.Perm ver'.state
  manifest : ∀ d ms, mget inv.manifest d = some ms → ∃ ext, mget inv'.manifest d = some (ms ++ ext)
  files : ∀ p, Listed inv p → mget fs' p = mget fs p

theorem KeepsAll.refl (inv : Inv) (fs : FS) : KeepsAll inv inv fs fs :=
  ⟨rfl, rfl, fun _ ver h => ⟨ver, h, List.Perm.refl _⟩, fun _ ms h => ⟨[], by rw [List.append_nil]; exact h⟩, fun _ _ => rfl⟩

theorem KeepsAll.listed {inv inv' : Inv} {fs fs' : FS} (h : KeepsAll inv inv' fs fs') (hk : (mkeys inv.manifest).Nodup)
    {p : Str} (hp : Listed inv p) : Listed inv' p := by
  obtain ⟨d, l, h1, h2⟩ := hp
  obtain ⟨ext, h3⟩ := h.manifest d l (mget_of_mem hk h1)
  exact ⟨d, _, mem_of_mget h3, List.mem_append_left _ h2⟩

theorem KeepsAll.trans {a b c : Inv} {f g h : FS} (hk : (mkeys a.manifest).Nodup) (h1 : KeepsAll a b f g) (h2 : KeepsAll b c g h) :
    KeepsAll a c f h := by
  refine ⟨h2.pad.trans h1.pad, h2.alg.trans h1.alg, ?_, ?_, fun p hp => ?_⟩
  · intro v ver hv
    obtain ⟨ver', a1, a2⟩ := h1.versions v ver hv
    obtain ⟨ver2, b1, b2⟩ := h2.versions v ver' a1
    exact ⟨ver2, b1, a2.trans b2⟩
  · intro d ms hd
    obtain ⟨e1, k1⟩ := h1.manifest d ms hd
    obtain ⟨e2, k2⟩ := h2.manifest d _ k1
    exact ⟨e1 ++ e2, by rw [k2, List.append_assoc]⟩
  · rw [h2.files p (h1.listed hk hp), h1.files p hp]

/-- loading what was stored -/
theorem Sound.reload {f : Str → Str} {a b : Inv} {n : Nat} (h : Sound a n) (hs : SameInv (stampInv f a) b) :
    Sound b n ∧ ∀ fs, KeepsAll a b fs fs := by
  have hpad : a.paddingLength = b.paddingLength := hs.padding
  have hkeys : (mkeys a.versions).Perm (mkeys b.versions) := by
    have := hs.versionKeys; rwa [stampInv_keys] at this
  have hman : a.manifest.Perm b.manifest := hs.manifest
  have hnv : (mkeys a.versions).Nodup := h.wf.1.nodup
  have hnv' : (mkeys b.versions).Nodup := hkeys.nodup_iff.1 hnv
  have hnm : (mkeys b.manifest).Nodup := (hman.map Prod.fst).nodup_iff.1 h.keys
  have hver : ∀ k v, (k, v) ∈ a.versions → ∃ v', (k, v') ∈ b.versions ∧ v.state.Perm v'.state := by
    intro k v hv
    obtain ⟨v', h1, h2⟩ := hs.versions k { v with created := f v.created } (by
      simp only [stampInv, List.mem_map]
      exact ⟨(k, v), hv, rfl⟩)
    exact ⟨v', h1, h2.2.2.2.2⟩
  refine ⟨⟨⟨⟨?_, ?_⟩, ?_⟩, hnm, ?_, ?_⟩, fun fs => ⟨hpad.symm, hs.digestAlg.symm, ?_, ?_, fun _ _ => rfl⟩⟩
  · rw [← hpad]; exact hkeys.symm.trans h.wf.1.1
  · rw [← hpad]; exact hs.head.symm.trans h.wf.1.2
  · intro k v' hv'
    have hk : k ∈ mkeys a.versions := hkeys.mem_iff.2 (mem_mkeys_iff.2 ⟨v', hv'⟩)
    obtain ⟨v, hv⟩ := mem_mkeys_iff.1 hk
    obtain ⟨v2, h1, h2⟩ := hver k v hv
    have : v2 = v' := by
      have e1 := mget_of_mem hnv' h1
      have e2 := mget_of_mem hnv' hv'
      rw [e1] at e2; exact Option.some.inj e2
    subst this
    exact (h2.map Prod.fst).nodup_iff.1 (h.wf.2 k v hv)
  · have : b.contentDir = a.contentDir := by
      unfold Inv.contentDir; rw [show b.contentDirectory = a.contentDirectory from hs.contentDirectory.symm]
    rw [this]; exact h.cdir
  · rintro p ⟨d, l, h1, h2⟩
    obtain ⟨k, a1, a2, rest, a3⟩ := h.files p ⟨d, l, hman.mem_iff.2 h1, h2⟩
    exact ⟨k, a1, a2, rest, by rw [← hpad]; exact a3⟩
  · intro v ver hv
    obtain ⟨v', h1, h2⟩ := hver v ver (mem_of_mget hv)
    exact ⟨v', mget_of_mem hnv' h1, h2⟩
  · intro d ms hd
    exact ⟨[], by rw [List.append_nil, ← mget_perm hman h.keys]; exact hd⟩

/-- Over any history versions, content paths and their files are kept. -/
theorem later_keeps {w : World} {inv0 inv : Inv} {fs0 fs : FS} {n : Nat} (h0 : Sound inv0 n)
    (hl : Later w (SafeNames w) inv0 fs0 inv fs) : KeepsAll inv0 inv fs0 fs ∧ ∃ m, Sound inv m ∧ n ≤ m := by
  induction hl with
  | now => exact ⟨KeepsAll.refl _ _, n, h0, Nat.le_refl _⟩
  | @aborted inv fs s t' _ hs ht hr ih =>
    obtain ⟨k1, m, k2, k3⟩ := ih
    refine ⟨k1.trans h0.keys ⟨rfl, rfl, fun _ ver h => ⟨ver, h, List.Perm.refl _⟩,
      fun _ ms h => ⟨[], by rw [List.append_nil]; exact h⟩, fun p hp => ?_⟩, m, k2, k3⟩
    refine mget_applyOps_ne (fun op hop hc => ?_)
    obtain ⟨op', h1, h2⟩ := ht.path hop
    exact session_not_old k2.wf k2.cdir hs h1 (by rw [h2, hc]; exact k2.files p hp)
  | @completed inv fs s i _ hs he hmod hsame ih =>
    obtain ⟨k1, m, k2, k3⟩ := ih
    obtain ⟨m', a1, a2, a3, a4, a5, a6⟩ := session_kept k2 hs he
    obtain ⟨b1, b2⟩ := a1.reload hsame
    refine ⟨k1.trans h0.keys (KeepsAll.trans k2.keys ⟨a3, a4, ?_, a6, fun p hp => ?_⟩ (b2 _)), m', b1, by omega⟩
    · intro v ver hv
      exact ⟨ver, by rw [a5 v (mem_mkeys_iff.2 ⟨ver, mem_of_mget hv⟩)]; exact hv, List.Perm.refl _⟩
    · exact mget_applyOps_ne (fun op hop hc => session_not_old k2.wf k2.cdir hs hop (by rw [hc]; exact k2.files p hp))

/-- **C29, full statement** (false): sessions with any names. -/
def C29_full : Prop :=
  ∀ (w : World) (inv0 inv : Inv) (fs0 fs : FS) (n : Nat) (v : Str) (xp : ExtractPath), Sound inv0 n →
    Later w (fun _ => True) inv0 fs0 inv fs → (extract w inv0 fs0 xp v false).err = none →
    (extract w inv fs xp (selectVersion inv0 v) false).err = none ∧
    ∀ out x, mget (applyOps out (extract w inv fs xp (selectVersion inv0 v) false).trace) x =
      mget (applyOps out (extract w inv0 fs0 xp v false).trace) x

/-- **C29** with safe names (`SafeNames`): once a version extracts, it extracts after every later history, with the
same manifest lines, and leaves the same files (unless two of its paths with different digests share an extraction
name).  `latest` at that time is the version that was the head. -/
theorem C29_old_versions_extract_partial {w : World} {inv0 inv : Inv} {fs0 fs : FS} {n : Nat} {v : Str} {xp : ExtractPath}
    {wm : Bool} (h0 : Sound inv0 n) (hl : Later w (SafeNames w) inv0 fs0 inv fs)
    (hok : (extract w inv0 fs0 xp v wm).err = none) :
    (extract w inv fs xp (selectVersion inv0 v) wm).err = none ∧
    (extract w inv0 fs0 xp v wm).lines.Perm (extract w inv fs xp (selectVersion inv0 v) wm).lines ∧
    ((∀ p d p' d' x, HasFile inv0 (selectVersion inv0 v) p d → HasFile inv0 (selectVersion inv0 v) p' d' →
        xp p = .ok (some x) → xp p' = .ok (some x) → d = d') →
      ∀ out x, (wm = true → x ≠ manifestName inv0.digestAlg) →
        mget (applyOps out (extract w inv fs xp (selectVersion inv0 v) wm).trace) x =
          mget (applyOps out (extract w inv0 fs0 xp v wm).trace) x) := by
  obtain ⟨k, _⟩ := later_keeps h0 hl
  refine extract_same ⟨k.alg, ?_, ?_⟩ hok
  · intro ver hver
    obtain ⟨ver', h1, h2⟩ := k.versions _ ver hver
    have hsel : selectVersion inv (selectVersion inv0 v) = selectVersion inv0 v := by
      obtain ⟨j, _, _, hj⟩ := h0.wf.1.mem_keys.1 (mem_mkeys_iff.2 ⟨ver, mem_of_mget hver⟩)
      rw [hj]
      unfold selectVersion
      rw [if_neg]
      rintro (hc | hc)
      · have := verName_head inv0.paddingLength j
        rw [hc] at this; revert this; decide
      · have := verName_head inv0.paddingLength j
        rw [hc] at this; revert this; decide
    exact ⟨ver', by rw [hsel]; exact h1, h2⟩
  · intro d m ms hd
    obtain ⟨ext, h1⟩ := k.manifest d _ hd
    exact ⟨ms ++ ext, h1, k.files m ⟨d, _, mem_of_mget hd, List.mem_cons_self ..⟩⟩

theorem exInv_sound : Sound exInv 2 :=
  ⟨exInv_wf2, by decide, exInv_contentDir, fun p ⟨d, m, h1, h2⟩ => exInv_versionFiles d m p h1 h2⟩

theorem sameInv_refl (a : Inv) : SameInv a a :=
  ⟨rfl, rfl, rfl, rfl, rfl, rfl, List.Perm.refl _, List.Perm.refl _,
    fun _ v h => ⟨v, h, rfl, rfl, rfl, rfl, List.Perm.refl _⟩, fun _ m h => ⟨m, h, List.Perm.refl _⟩,
    fun _ m h => ⟨m, h, List.Perm.refl _⟩⟩

/-- a later history of the example object: a session that crashed, then one that completed -/
theorem exLater : ∃ fs, Later exWorld4 (SafeNames exWorld4) exInv exDisk4
    (stampInv exWorld4.time (session exWorld4 exInv (exTwice "c".toList "e".toList)).obj.inv) fs :=
  ⟨_, .completed (exTwice "c".toList "e".toList) _
    (.aborted (exTwice "c".toList "a".toList) ((session exWorld4 exInv (exTwice "c".toList "a".toList)).obj.trace.take 2)
      .now (exTwice_safe ⟨0, by decide⟩ ⟨0, by decide⟩) (CrashPrefix.take _ _) (by decide))
    (exTwice_safe ⟨0, by decide⟩ ⟨0, by decide⟩) (by decide) (by decide) (sameInv_refl _)⟩

example : ∃ fs, (extract exWorld4 (stampInv exWorld4.time (session exWorld4 exInv (exTwice "c".toList "e".toList)).obj.inv)
    fs (fun p => .ok (some p)) "v2".toList true).err = none := by
  obtain ⟨fs, h⟩ := exLater
  exact ⟨fs, (C29_old_versions_extract_partial (v := "latest".toList) exInv_sound h (by decide)).1⟩

/-- A name with `..` destroys content of an earlier version: it does not extract any more. -/
theorem C29_full_fails : ¬ C29_full := by
  intro hf
  have h := hf exWorld4 exInv exInv exDisk4 _ 2 "v1".toList (fun p => .ok (some p)) exInv_sound
    (.aborted (exSession "../../v1/content/a".toList)
      ((session exWorld4 exInv (exSession "../../v1/content/a".toList)).obj.trace.take 2) .now trivial
      (CrashPrefix.take _ _) (by decide)) (by decide)
  exact absurd h.1 (by decide)

end Gocfl
