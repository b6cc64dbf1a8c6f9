import Verif.Props.Automated

/-! C175: a storage root keeps what was put into it, also when extensions make versions of their own. -/

namespace Gocfl

/-! ## What is known of the versions between -/

theorem stage_hash {w : World} {o : Obj} {after : List Call} (h : (stage w o after).err = none) :
    ∃ f, w.hash (stage w o after).obj.inv.digestAlg = some f := by
  unfold stage at h ⊢
  obtain ⟨h1, h2⟩ := andThen_split h
  rw [andThen_none h1]
  obtain ⟨h3, h4⟩ := andThen_split h2
  rw [andThen_none h3]
  obtain ⟨h5, h6⟩ := andThen_split h4
  rw [andThen_none h5]
  rw [storeInventory_trace.1]
  generalize (withInv (runCalls w (if o.echo = true then objEcho w o else ok o).obj after).obj
    (clean (runCalls w (if o.echo = true then objEcho w o else ok o).obj after).obj.inv)).obj = o3 at h6 ⊢
  unfold storeInventory at h6
  split at h6
  · cases h6
  · cases hh : w.hash o3.inv.digestAlg with
    | none => rw [hh] at h6; cases h6
    | some f => exact ⟨f, rfl⟩

/-- if a session with versions of extensions succeeds, so would it without them -/
theorem session_first_ok {w : World} {inv : Inv} {n : Nat} (hwf : WF inv n) {s : Session} {r : Round} {rs : List Round}
    (hr : s.rounds = r :: rs) (he : (session w inv s).err = none) : (session w inv s.first).err = none := by
  have e1 : session w inv s.first = ((startUpdate w ⟨inv, [], false, []⟩ s.info s.echo s.before).andThen fun o =>
      runCalls w o s.body).andThen fun o => (endUpdate w o s.after []).andThen fun o => closeObj w o [] := by
    unfold session sessionOpen
    simp only [andThen_assoc]
    rfl
  have e2 : session w inv s = ((startUpdate w ⟨inv, [], false, []⟩ s.info s.echo s.before).andThen fun o =>
      runCalls w o s.body).andThen fun o => (endUpdate w o s.after (r :: rs)).andThen fun o => closeObj w o s.exts := by
    unfold session sessionOpen
    simp only [andThen_assoc, hr]
  rw [e2] at he
  rw [e1]
  obtain ⟨h1, h2⟩ := andThen_split he
  have hwr : ((startUpdate w ⟨inv, [], false, []⟩ s.info s.echo s.before).andThen fun o =>
      runCalls w o s.body).obj.inv.writeable = true := by
    obtain ⟨g1, _⟩ := andThen_split h1
    rw [andThen_none g1]
    obtain ⟨k1, k2, _⟩ := startUpdate_wf (o := ⟨inv, [], false, []⟩) hwf g1
    exact (calls_wf k1 _).2.1.trans k2
  generalize ((startUpdate w ⟨inv, [], false, []⟩ s.info s.echo s.before).andThen fun o => runCalls w o s.body) = x at *
  rw [andThen_none h1]
  generalize x.obj = o at *
  cases hmo : o.inv.modified with
  | false =>
    rw [endUpdate_idle _ (Or.inr hmo), andThen_ok]
    rcases closeObj_cases w o [] with ⟨h3, _⟩ | ⟨_, h4, _⟩ | ⟨_, h4, _⟩
    · rw [h3]; rfl
    · rw [hmo] at h4; cases h4
    · rw [hmo] at h4; cases h4
  | true =>
    rw [endUpdate_stages _ _ _ hwr hmo] at h2
    obtain ⟨h3, _⟩ := andThen_split (andThen_split h2).1
    obtain ⟨f, hf⟩ := stage_hash h3
    rw [endUpdate_stage _ hwr hmo, andThen_none h3]
    rcases closeObj_cases w (stage w o s.after).obj [] with ⟨h5, _⟩ | ⟨_, _, h5, _⟩ | ⟨_, _, f, _, h5⟩
    · rw [h5]; rfl
    · rw [hf] at h5; cases h5
    · rw [h5]; rfl

section
variable {w : World} {h : Bytes → Str} {a : CreateArgs} {id : Str} {fs fs' : FS} {inv : Inv} {H H' : History} {dup : Bool}
  {s : Session} {files : List InFile}

/-- what was read back is also in memory -/
theorem Archived.memory {q : RawInv} (A : Archived w h a id fs (loadedInv 0 q) H) (R : ReadBack w inv q)
    (S : Staged w fs 0 H.length inv) : InArchive w h a id fs inv H := by
  obtain ⟨e1, _, e3, _, e5⟩ := R.scalars
  have hk : ∀ d, d ∈ mkeys inv.manifest → d ∈ mkeys (loadedInv 0 q).manifest := by
    intro d hd
    obtain ⟨m, hm⟩ := mem_mkeys_iff.1 hd
    exact mem_mkeys_of_mem (R.manifest.mem_iff.1 hm)
  have hst : ∀ b, StoredContent fs inv b → StoredContent fs (loadedInv 0 q) b := by
    rintro b ⟨d, m, c, h1, h2⟩
    exact ⟨d, m, c, R.manifest.mem_iff.1 h1, h2⟩
  refine ⟨S, ⟨fun d hd => A.clear.lower d (hk d hd), fun v x d d' h1 h2 => ?_, fun d hd => ?_⟩, e3.trans A.alg, ?_, e1.trans A.id,
    e5.trans A.cdir, fun b b' h1 h2 => A.distinct b b' (hst b h1) (hst b' h2), fun k E hk x b => ?_⟩
  · exact A.clear.oneDigest v x d d' ((hasFile_readBack R v x d).2 h1) ((hasFile_readBack R v x d').2 h2)
  · obtain ⟨v, x, hv⟩ := A.clear.used d (hk d hd)
    exact ⟨v, x, (hasFile_readBack R v x d).1 hv⟩
  · rw [e3]; exact A.hash
  · rw [← versionContent_readBack (p := 0) R]
    exact A.content k E hk x b

/-- only the files count -/
theorem Archived.congr (A : Archived w h a id fs inv H) (he : ∀ x, mget fs' x = mget fs x) (hn : (mkeys fs').Nodup) :
    Archived w h a id fs' inv H := by
  have hI := A.intact.congr he hn
  have hst : ∀ b, StoredContent fs' inv b → StoredContent fs inv b := by
    rintro b ⟨d, m, c, h1, h2, h3⟩
    exact ⟨d, m, c, h1, h2, by rw [← he]; exact h3⟩
  refine ⟨⟨hI.staged, A.clear, A.alg, A.hash, A.id, A.cdir, fun b b' h1 h2 => A.distinct b b' (hst b h1) (hst b' h2),
    fun k E hk x b => ?_⟩, hI⟩
  rw [← A.content k E hk x b]
  unfold VersionContent
  simp only [he]

end

/-- the version an extension makes, as a session -/
def Round.session (r : Round) : Session := ⟨r.info, false, r.before, r.body, r.after, [], []⟩

/-- What is asked of the files that extensions put into the versions they make, one version after the other, if the object
has the history `H`; afterwards it has the history `H'`. -/
inductive AutoRounds (w : World) (D : Bool → Session → List InFile → History → Prop) : List Round → History → History → Prop where
  | nil (H : History) : AutoRounds w D [] H H
  | cons {r : Round} {rs : List Round} {H H' : History} (dup : Bool) (files : List InFile)
      (deposit : D dup r.session files H)
      (rest : AutoRounds w D rs (H ++ [After w r.session files H.last]) H') : AutoRounds w D (r :: rs) H H'

/-- … and of the files of the whole session -/
def AutoSession (w : World) (D : Str → Bool → Session → List InFile → History → Prop) (id : Str) (s : Session) (H H' : History) : Prop :=
  ∃ dup files, D id dup s.first files H ∧ AutoRounds w (D id) s.rounds (H ++ [After w s.first files H.last]) H'

section
variable {w : World} {h : Bytes → Str} {a : CreateArgs} {id : Str}

theorem Deposit.unFirst {s : Session} {dup : Bool} {files : List InFile} {H : History} (hr : s.rounds = [])
    (D : Deposit w h a id dup s.first files H) : Deposit w h a id dup s files H := by
  obtain ⟨i, e, b, c, d, r, x⟩ := s
  obtain rfl : r = [] := hr
  exact ⟨⟨⟨D.adds.body, D.adds.before, D.adds.after, rfl⟩, D.names, D.targets, D.paths, D.safe, D.change, D.noConflict, D.noCollision⟩,
    D.placed⟩

/-- a session with the versions of extensions -/
theorem archived_rounds (hc : Codec w) (hx : HexHash w) (hL : LowerHash w) (ht : ∀ t, w.time (w.time t) = w.time t) {rs : List Round} :
    ∀ {fs : FS} {inv : Inv} {H H' : History} {s : Session} {dup : Bool} {files : List InFile}, InArchive w h a id fs inv H →
      s.rounds = rs → Deposit w h a id dup s.first files H → AutoRounds w (Deposit w h a id) rs (H ++ [After w s.first files H.last]) H' →
      (session w inv s).err = none →
      CleanRun w 0 rs H.length inv s ∧
      ∃ q, ValidObject w (applyOps fs (session w inv s).obj.trace) 0 H'.length q ∧
        Archived w h a id (applyOps fs (session w inv s).obj.trace) (loadedInv 0 q) H' := by
  induction rs with
  | nil =>
    intro fs inv H H' s dup files A hr D R he
    cases R
    obtain ⟨q, h1, h2, _, h4⟩ := A.next hc hx hL ht (D.unFirst hr) he
    exact ⟨h4, q, by rw [List.length_append]; exact h1, h2⟩
  | cons r rs ih =>
    intro fs inv H H' s dup files A hr D R he
    have he1 := session_first_ok A.staged.ok.wf hr he
    obtain ⟨q1, V1, A1, R1, hcl⟩ := A.next hc hx hL ht D he1
    have S1 := session_staged hc hx hL ht A.staged hcl
    have M1 := A1.memory R1 (by rw [List.length_append]; exact S1)
    obtain ⟨t, f, _, k2⟩ := session_rounds A.staged.ok.wf hr hcl.completes hcl.modified
    cases R with
    | cons dup' files' D' R' =>
      obtain ⟨hrun, q, V, A2⟩ := ih (s := s.follow r rs) M1 rfl D' R' (k2.err.symm.trans he)
      rw [List.length_append] at hrun
      obtain ⟨_, hsame⟩ := rounds_same hc hx hL ht A.staged hr hcl hrun
      have hn := applyOps_nodup A.staged.nodup (session w inv s).obj.trace
      exact ⟨⟨hr, hcl, hrun⟩, q, V.congr hsame hn, A2.congr hsame hn⟩

end

/-! ## Commands -/

/-- A run of commands on a storage root, as in C162, with the histories of the objects; `D` says what is asked of a session
and what the history is after it. -/
inductive KeepRun (w : World) (env : Env) (plain : Bool) (blank : Inv) (ls : List (Str → Res Str)) (a : CreateArgs)
    (D : Str → Session → History → History → Prop) : FS → (Str → History) → Prop where
  | start (fs : FS) : KeepRun w env plain blank ls a D fs (fun _ => [])
  | aside {fs : FS} {H : Str → History} (t : List FsOp) (run : KeepRun w env plain blank ls a D fs H)
      (outside : ∀ id, H id ≠ [] → Outside (rootPath ls id).1 t) : KeepRun w env plain blank ls a D (applyOps fs t) H
  | add {fs : FS} {H : Str → History} (id : Str) (s : Session) (H' : History)
      (run : KeepRun w env plain blank ls a D fs H) (args : GoodArgs a id) (new : objectExists ls fs id = .ok false)
      (apart : ∀ id', H id' ≠ [] → Apart (rootPath ls id).1 (rootPath ls id').1)
      (good : D id s [] H') (ok : (addCmd w env plain blank ls a fs id s).2 = none) :
      KeepRun w env plain blank ls a D (applyOps fs (addCmd w env plain blank ls a fs id s).1)
        (fun i => if i = id then H' else H i)
  | update {fs : FS} {H : Str → History} (id : Str) (s : Session) (H' : History)
      (run : KeepRun w env plain blank ls a D fs H) (there : H id ≠ [])
      (good : D id s (H id) H') (ok : (updateCmd w env plain blank ls a fs id s).2 = none) :
      KeepRun w env plain blank ls a D (applyOps fs (updateCmd w env plain blank ls a fs id s).1)
        (fun i => if i = id then H' else H i)

section
variable {w : World} {env : Env} {plain : Bool} {blank : Inv} {ls : List (Str → Res Str)} {a : CreateArgs} {h : Bytes → Str}
  {D : Str → Session → History → History → Prop}

/-- the objects of a run are archived, if those of a session are -/
theorem keepRun_holds (hh : w.hash a.alg = some h)
    (hstep : ∀ {id : Str} {fs : FS} {inv : Inv} {s : Session} {H H' : History}, Archived w h a id fs inv H → D id s H H' →
      (session w inv s).err = none → ∃ r, ValidObject w (applyOps fs (session w inv s).obj.trace) 0 H'.length r ∧
        Archived w h a id (applyOps fs (session w inv s).obj.trace) (loadedInv 0 r) H')
    {fs : FS} {H : Str → History} (hr : KeepRun w env plain blank ls a D fs H) :
    (∀ id, H id ≠ [] → HoldsHistory w ls a h fs id (H id)) ∧
    ∀ id id', H id ≠ [] → H id' ≠ [] → id ≠ id' → Apart (rootPath ls id).1 (rootPath ls id').1 := by
  induction hr with
  | start fs => exact ⟨fun id hid => absurd rfl hid, fun id _ hid => absurd rfl hid⟩
  | aside t _ ho ih => exact ⟨fun id hid => (ih.1 id hid).outside (ho id hid), ih.2⟩
  | @add fs H id s H' _ hga hex hap hD he ih =>
    have hadd : addCmd w env plain blank ls a fs id s = addObjectByPath w env plain blank ls a fs id s := by
      unfold addCmd; rw [hex]
    rw [hadd] at he ⊢
    unfold addObjectByPath at he ⊢
    rw [hex] at he ⊢
    simp only at he ⊢
    cases hcr : (createObject ls a fs id).2 with
    | error e => rw [hcr] at he; cases he
    | ok x =>
      obtain ⟨folder, inv⟩ := x
      rw [hcr] at he
      simp only at he ⊢
      obtain ⟨rfl, hinv, hemp, hops⟩ := createObject_ok hcr
      have hini : (initObject a [] id).2 = .ok inv := by
        unfold createObject at hcr
        simp only [hemp] at hcr
        obtain ⟨j, hj, hcr⟩ := res_bind_eq_ok.1 hcr
        split at hcr
        · cases hcr
        · cases hcr; exact hj
      have hops' : (createObject ls a fs id).1 = (initObject a [] id).1.map (FsOp.lift (rootPath ls id).1) := by
        unfold createObject; simp only [hemp]
      have hsub : subFS (applyOps fs ((createObject ls a fs id).1 ++ (inFolder (rootPath ls id).1 (session w inv s)).1)) (rootPath ls id).1 =
          applyOps (applyOps [] (initObject a [] id).1) (session w inv s).obj.trace := by
        rw [applyOps_append]
        unfold inFolder
        rw [subFS_applyOps_lift, hops', subFS_applyOps_lift, hemp]
      obtain ⟨r, O, A⟩ := hstep (archived_new hga hh hini) hD he
      rw [← hsub] at O A
      have hout : ∀ id', Apart (rootPath ls id).1 (rootPath ls id').1 → Outside (rootPath ls id').1
          ((createObject ls a fs id).1 ++ (inFolder (rootPath ls id).1 (session w inv s)).1) := by
        intro id' hp op hop
        rcases List.mem_append.1 hop with h1 | h1
        · rw [hops'] at h1; exact outside_lift hp _ op h1
        · exact outside_lift hp _ op h1
      refine ⟨fun i hi => ?_, fun i j hi hj hij => ?_⟩
      · by_cases hii : i = id
        · subst hii
          simp only [if_true]
          exact ⟨rootPath_of_exists hex, r, O, A⟩
        · simp only [if_neg hii] at hi ⊢
          exact (ih.1 i hi).outside (hout i (hap i hi))
      · by_cases hii : i = id <;> by_cases hjj : j = id
        · exact absurd (hii.trans hjj.symm) hij
        · simp only [if_neg hjj] at hj
          rw [hii]
          exact hap j hj
        · simp only [if_neg hii] at hi
          rw [hjj]
          obtain ⟨h1, h2, h3⟩ := hap i hi
          exact ⟨h1.symm, h3, h2⟩
        · simp only [if_neg hii] at hi
          simp only [if_neg hjj] at hj
          exact ih.2 i j hi hj hij
  | @update fs H id s H' _ hid hD he ih =>
    obtain ⟨hroot, r0, O0, A0⟩ := ih.1 id hid
    obtain ⟨f0, hl⟩ := loadByID_valid env plain blank hroot O0
    have hex : objectExists ls fs id = .ok true := by
      cases hx : objectExists ls fs id with
      | error e => unfold objectExists at hx; rw [hroot] at hx; cases hx
      | ok b =>
        have : b = true := by
          rw [C94_exists_exact _ _ _ _ hx]
          obtain ⟨num, _, hd, _⟩ := A0.intact.decl
          exact ⟨_, _, by rw [← mget_subFS]; exact hd⟩
        rw [this]
    have hupd : updateCmd w env plain blank ls a fs id s = inFolder (rootPath ls id).1 (session w (loadedInv 0 r0) s) := by
      unfold updateCmd addObjectByPath
      simp only [hex, hl]
    rw [hupd] at he ⊢
    have hsub : subFS (applyOps fs (inFolder (rootPath ls id).1 (session w (loadedInv 0 r0) s)).1) (rootPath ls id).1 =
        applyOps (subFS fs (rootPath ls id).1) (session w (loadedInv 0 r0) s).obj.trace := subFS_applyOps_lift _ _ _
    obtain ⟨r, O, A⟩ := hstep A0 hD he
    rw [← hsub] at O A
    refine ⟨fun i hi => ?_, fun i j hi hj hij => ih.2 i j ?_ ?_ hij⟩
    · by_cases hii : i = id
      · subst hii
        simp only [if_true]
        exact ⟨hroot, r, O, A⟩
      · simp only [if_neg hii] at hi ⊢
        exact (ih.1 i hi).outside (outside_lift (ih.2 id i hid hi (Ne.symm hii)) _)
    · by_cases hii : i = id
      · rw [hii]; exact hid
      · simpa only [if_neg hii] using hi
    · by_cases hjj : j = id
      · rw [hjj]; exact hid
      · simpa only [if_neg hjj] using hj

/-- **C175.** After any run of successful `add` and `update` commands, in which extensions may have added versions of their
own, every object opens under its id, is valid, and every version it ever had comes out with exactly the files it was given,
those of the user and those of the extensions. -/
theorem C175_automated_archive_partial (hc : Codec w) (hx : HexHash w) (hL : LowerHash w) (ht : ∀ t, w.time (w.time t) = w.time t)
    (hh : w.hash a.alg = some h) {fs : FS} {H : Str → History} (hr : KeepRun w env plain blank ls a (AutoSession w (Deposit w h a)) fs H) {id : Str}
    (hid : H id ≠ []) : Retrieved w env plain blank ls fs id (H id) := by
  refine ((keepRun_holds hh ?_ hr).1 id hid).retrieved hid
  rintro id fs inv s H H' A ⟨dup, files, D, R⟩ he
  exact (archived_rounds hc hx hL ht A.toInArchive rfl D R he).2

end

/-- **C175, full statement** (false): also where a content moves onto a path that is there. -/
def C175_full : Prop := ∀ (w : World) (env : Env) (plain : Bool) (blank : Inv) (ls : List (Str → Res Str)) (a : CreateArgs) (h : Bytes → Str)
    (fs : FS) (H : Str → History) (id : Str), Codec w → HexHash w → LowerHash w → (∀ t, w.time (w.time t) = w.time t) →
    w.hash a.alg = some h → KeepRun w env plain blank ls a (AutoSession w (Fit w h a)) fs H → H id ≠ [] →
    Retrieved w env plain blank ls fs id (H id)

/-! ## Cases -/

theorem Fit.first {w : World} {h : Bytes → Str} {a : CreateArgs} {id : Str} {s : Session} {dup : Bool} {files : List InFile} {H : History}
    (D : Fit w h a id dup s files H) : Fit w h a id dup s.first files H := by
  obtain ⟨i, e, b, c, d, r, x⟩ := s
  obtain rfl : r = [] := D.adds.rounds
  exact ⟨⟨D.adds.body, D.adds.before, D.adds.after, rfl⟩, D.names, D.targets, D.paths, D.safe, D.change, D.noConflict, D.noCollision⟩

/-- a run without versions of extensions -/
theorem archiveRun_keep {w : World} {env : Env} {plain : Bool} {blank : Inv} {ls : List (Str → Res Str)} {a : CreateArgs} {h : Bytes → Str}
    {fs : FS} {H : Str → History} (hr : ArchiveRun w env plain blank ls a (Fit w h a) fs H) :
    KeepRun w env plain blank ls a (AutoSession w (Fit w h a)) fs H := by
  induction hr with
  | start fs => exact .start fs
  | aside t _ ho ih => exact .aside t ih ho
  | add id s dup files _ hga hex hap D he ih =>
    refine .add id s _ ih hga hex hap ⟨dup, files, D.first, ?_⟩ he
    rw [D.adds.rounds, show History.last [] = fun _ _ => False from rfl, after_nothing]
    exact .nil _
  | update id s dup files _ hid D he ih =>
    refine .update id s _ ih hid ⟨dup, files, D.first, ?_⟩ he
    rw [D.adds.rounds]
    exact .nil _

/-- **C175 fails** if a content moves onto a path that is there. -/
theorem C175_full_fails : ¬ C175_full := fun hf => C162_full_fails (fun w env plain blank ls a h fs H id hc hx hL ht hh hr hid =>
  hf w env plain blank ls a h fs H id hc hx hL ht hh (archiveRun_keep hr) hid)

/-- what can be added by a session can be added by an extension -/
theorem Deposit.asRound {w : World} {h : Bytes → Str} {a : CreateArgs} {id : Str} {s : Session} {dup : Bool} {files : List InFile} {H : History}
    (D : Deposit w h a id dup s files H) (he : s.echo = false) {r : Round} (h1 : AddsCalls false false r.body files)
    (h2 : AddsCalls false false r.before []) (h3 : AddsCalls false false r.after []) :
    Deposit w h a id false r.session files H := by
  have hu : ∀ d d', callsUses (addAll d files) = callsUses (addAll d' files) := by
    intro d d'
    unfold callsUses addAll
    simp only [List.flatMap_map]
    rfl
  have hbody : callsUses r.session.body = callsUses s.body := h1.uses.trans ((hu _ _).trans D.adds.body.uses.symm)
  have haft : After w r.session files H.last = After w s files H.last := by
    rw [after_plain (s := s) he, after_plain (s := r.session) rfl]
  refine ⟨⟨⟨h1, h2, h3, rfl⟩, ?_, ?_, D.paths, D.safe, D.change, ?_, D.noCollision⟩, ?_⟩
  · intro x hx
    refine D.names x ?_
    unfold Session.uses at hx ⊢
    have e2 : callsUses r.session.before = [] := h2.uses
    have e3 : callsUses r.session.after = [] := h3.uses
    rw [hbody, e2, e3, show r.session.rounds = [] from rfl] at hx
    simp only [List.flatMap_nil, List.append_nil, List.nil_append] at hx
    simp only [List.mem_append]
    exact Or.inl (Or.inl (Or.inr hx))
  · have := D.targets
    unfold targets at this ⊢
    rw [hbody]
    exact this
  · rw [haft]; exact D.noConflict
  · intro f hf q hq
    rcases D.placed f hf q hq with hp | ⟨hp, _⟩
    · exact Or.inl hp
    · exact Or.inr ⟨hp, (nomatch ·)⟩

theorem histOf_round {r : Round} (ll : List (List (Str × Bytes))) (files : List InFile) :
    histOf ll ++ [After exKeep r.session files (histOf ll).last] = histOf (ll ++ [replList files (ll.getLastD [])]) := by
  have := histOf_snoc false ll files
  rw [after_plain (s := arSession false files) rfl] at this
  rw [after_plain (s := r.session) rfl]
  exact this

/-- what the extensions add: first a new file, then another content of `e`, with a record of their own -/
def akOne : List InFile := [⟨"content".toList, "h".toList, [5, 5, 5]⟩]
def akTwo : List InFile := [⟨"content".toList, "e".toList, [8, 8, 8, 8]⟩]
def akRound1 : Round := ⟨⟨"automated version".toList, "gocfl".toList, [], []⟩, [], [.reader ["h".toList] "content".toList [5, 5, 5]], [.ext "x".toList [1]]⟩
def akRound2 : Round := ⟨⟨"automated version".toList, "gocfl".toList, [], []⟩, [.ext "y".toList [2]],
  [.ext "z".toList [3], .reader ["e".toList] "content".toList [8, 8, 8, 8]], []⟩

/-- the files of `a` are added, and extensions make two versions after it -/
def akSession : Session := { rtSession rtFiles with rounds := [akRound1, akRound2] }

theorem ak_fit1 : FitList false "a".toList akOne [replList rtFiles []] :=
  ⟨by decide, by decide, by decide, by decide, by decide, by decide, by decide⟩
theorem ak_placed1 : PlacedList akOne [replList rtFiles []] := by unfold PlacedList; decide
theorem ak_fit2 : FitList false "a".toList akTwo ([replList rtFiles []] ++ [replList akOne (replList rtFiles [])]) :=
  ⟨by decide, by decide, by decide, by decide, by decide, by decide, by decide⟩
theorem ak_placed2 : PlacedList akTwo ([replList rtFiles []] ++ [replList akOne (replList rtFiles [])]) := by unfold PlacedList; decide

theorem ak_session : AutoSession exKeep (Deposit exKeep rtHash exArgs) "a".toList akSession []
    (histOf [replList rtFiles [], replList akOne (replList rtFiles []), replList akTwo (replList akOne (replList rtFiles []))]) := by
  refine ⟨true, rtFiles, deposit_of_list (ll := []) (ar_fit1 _ (Or.inl rfl)) ar_placed1, ?_⟩
  have h0 : ([] : History) ++ [After exKeep akSession.first rtFiles (History.last [])] = histOf [replList rtFiles []] :=
    histOf_snoc false [] rtFiles
  rw [h0]
  refine .cons false akOne ((deposit_of_list ak_fit1 ak_placed1).asRound rfl (.reader ⟨"content".toList, "h".toList, [5, 5, 5]⟩ rfl rfl .nil)
    .nil (.ext _ _ .nil)) ?_
  rw [histOf_round]
  refine .cons false akTwo ((deposit_of_list ak_fit2 ak_placed2).asRound rfl
    (.ext _ _ (.reader ⟨"content".toList, "e".toList, [8, 8, 8, 8]⟩ rfl rfl .nil)) (.ext _ _ .nil) .nil) ?_
  rw [histOf_round]
  exact .nil _

noncomputable def akFs : FS :=
  applyOps [] (addCmd exKeep exEnv true (blankInv [] []) flatLayout exArgs [] "a".toList akSession).1

/-- the hypotheses of C175 are met: a version of the user and two of extensions -/
theorem ak_retrieved : Retrieved exKeep exEnv true (blankInv [] []) flatLayout akFs "a".toList
    (histOf [[("c/d".toList, [1, 2]), ("e".toList, [7]), ("f".toList, [1, 2])],
      [("h".toList, [5, 5, 5]), ("c/d".toList, [1, 2]), ("e".toList, [7]), ("f".toList, [1, 2])],
      [("e".toList, [8, 8, 8, 8]), ("h".toList, [5, 5, 5]), ("c/d".toList, [1, 2]), ("f".toList, [1, 2])]]) := by
  have run : KeepRun exKeep exEnv true (blankInv [] []) flatLayout exArgs (AutoSession exKeep (Deposit exKeep rtHash exArgs)) akFs _ :=
    .add "a".toList akSession _ (.start []) exArgs_good (by decide) (fun _ h => absurd rfl h) ak_session (by decide +kernel)
  have := C175_automated_archive_partial (codecWorld_codec _) (codecWorld_hex _) exKeep_lower (fun _ => rfl) (a := exArgs) rtHash_eq run
    (id := "a".toList) (by rw [if_pos rfl]; exact List.cons_ne_nil _ _)
  rw [if_pos rfl] at this
  exact this

end Gocfl
