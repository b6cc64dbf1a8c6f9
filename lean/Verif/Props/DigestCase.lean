import Verif.Props.Life
import Verif.Props.AcceptedInventory

/-! # Digests in the manifest differ in more than upper and lower case (C187)

Keys of JSON objects are case sensitive, digests are not.  The specification therefore asks that every digest occurs
only once in the manifest, regardless of case. -/

namespace Gocfl

/-- Every digest occurs once in the manifest, regardless of case. -/
def DigestsOnce (inv : Inv) : Prop := ((mkeys inv.manifest).map toLower).Nodup

/-- All digests of the manifest are written with small letters. -/
def SmallDigests (inv : Inv) : Prop := ∀ d ∈ mkeys inv.manifest, toLower d = d

theorem digestsOnce_iff {inv : Inv} (hn : (mkeys inv.manifest).Nodup) : DigestsOnce inv ↔
    ∀ d ∈ mkeys inv.manifest, ∀ e ∈ mkeys inv.manifest, toLower d = toLower e → d = e := by
  unfold DigestsOnce
  rw [List.nodup_map_iff_inj_on hn]

theorem SmallDigests.once {inv : Inv} (h : SmallDigests inv) (hn : (mkeys inv.manifest).Nodup) : DigestsOnce inv :=
  (digestsOnce_iff hn).2 (fun d hd e he hde => by rw [← h d hd, ← h e he, hde])

theorem step_manifest_small {inv inv' : Inv} {op : Op} (hs : step inv op = .ok inv') :
    (∀ d ∈ mkeys inv.manifest, d ∈ mkeys inv'.manifest) ∧ ∀ d ∈ mkeys inv'.manifest, d ∈ mkeys inv.manifest ∨ toLower d = d := by
  have same : ∀ {a b : Inv}, b.manifest = a.manifest → (∀ d ∈ mkeys a.manifest, d ∈ mkeys b.manifest) ∧
      ∀ d ∈ mkeys b.manifest, d ∈ mkeys a.manifest ∨ toLower d = d := by
    intro a b h; rw [h]; exact ⟨fun d hd => hd, fun d hd => Or.inl hd⟩
  cases op with
  | newVersion m u a t => exact same (newVersion_frame hs).2.2.2.2.2.1
  | add ns mp cs =>
    obtain ⟨dig, _, hs⟩ := addFile_ok hs
    refine foldlM_inv (P := fun i => (∀ d ∈ mkeys inv.manifest, d ∈ mkeys i.manifest) ∧
      ∀ d ∈ mkeys i.manifest, d ∈ mkeys inv.manifest ∨ toLower d = d) (fun b a b' _ hb hab => ?_) _ _ ?_ hs
    · obtain ⟨_, _, _, _, _, _, _, hm, _, _⟩ := addName_ok hab
      rw [hm]
      unfold manAdd
      split
      · refine ⟨fun d hd => (mem_mkeys_mset).2 (Or.inr (hb.1 d hd)), fun d hd => ?_⟩
        rcases (mem_mkeys_mset).1 hd with rfl | hd
        · exact Or.inr (toLower_idem _)
        · exact hb.2 d hd
      · exact hb
    · exact same (addFixity_fold _ _ _).2.2.1
  | delete p => exact same (deleteFile_manifest hs)
  | rename a b =>
    obtain ⟨s, _, rfl⟩ := renameFile_ok hs
    exact same (setHeadState_manifest _ _)
  | copy d c =>
    obtain ⟨_, s, _, ⟨_, rfl⟩ | ⟨_, rfl⟩⟩ := copyFile_ok hs
    · exact same rfl
    · exact same (setHeadState_manifest _ _)
  | echo ex pre => exact same (echoDelete_manifest hs)

theorem run_manifest_small {inv inv' : Inv} {ops : List Op} (hr : run inv ops = .ok inv') :
    (∀ d ∈ mkeys inv.manifest, d ∈ mkeys inv'.manifest) ∧ ∀ d ∈ mkeys inv'.manifest, d ∈ mkeys inv.manifest ∨ toLower d = d := by
  induction ops generalizing inv with
  | nil => cases hr; exact ⟨fun d hd => hd, fun d hd => Or.inl hd⟩
  | cons op ops ih =>
    obtain ⟨i, hi, hr⟩ := res_bind_eq_ok.1 hr
    obtain ⟨a1, a2⟩ := step_manifest_small hi
    obtain ⟨b1, b2⟩ := ih hr
    exact ⟨fun d hd => b1 d (a1 d hd), fun d hd => (b2 d hd).elim (a2 d) Or.inr⟩

/-- **C187, exactly when it holds.** After any history of operations on an inventory every digest occurs once, regardless
of case, if and only if that was so before and no digest that is new was there in another case. -/
theorem C187_once_iff {inv inv' : Inv} {ops : List Op} (hn : (mkeys inv.manifest).Nodup) (hr : run inv ops = .ok inv') :
    DigestsOnce inv' ↔ DigestsOnce inv ∧
      ∀ d ∈ mkeys inv'.manifest, d ∉ mkeys inv.manifest → ∀ e ∈ mkeys inv.manifest, toLower e ≠ d := by
  obtain ⟨h1, h2⟩ := run_manifest_small hr
  have hn' := run_manifest_nodup hn hr
  rw [digestsOnce_iff hn, digestsOnce_iff hn']
  constructor
  · refine fun h => ⟨fun d hd e he => h d (h1 d hd) e (h1 e he), fun d hd hd' e he hed => ?_⟩
    have hl := (h2 d hd).resolve_left hd'
    exact hd' (h e (h1 e he) d hd (by rw [hl, hed]) ▸ he)
  · rintro ⟨h, hx⟩ d hd e he hde
    rcases h2 d hd with ha | ha
    · rcases h2 e he with hb | hb
      · exact h d ha e hb hde
      · by_cases hb' : e ∈ mkeys inv.manifest
        · exact h d ha e hb' hde
        · exact absurd (hde.trans hb) (hx e he hb' d ha)
    · by_cases ha' : d ∈ mkeys inv.manifest
      · rcases h2 e he with hb | hb
        · exact h d ha' e hb hde
        · by_cases hb' : e ∈ mkeys inv.manifest
          · exact h d ha' e hb' hde
          · exact absurd (hde.trans hb) (hx e he hb' d ha')
      · by_cases hb' : e ∈ mkeys inv.manifest
        · exact absurd (hde.symm.trans ha) (hx d hd ha' e hb')
        · rw [← ha, hde, (h2 e he).resolve_left hb']

/-- a session that opened its version is a history of operations -/
theorem session_history {w : World} {inv : Inv} {n : Nat} {s : Session} (h : Sound inv n) (hs : SafeNames w s)
    (he : (session w inv s).err = none) : ∃ ops, run inv ops = .ok (session w inv s).obj.inv := by
  cases hv : newVersion inv s.info.msg s.info.userName s.info.userAddress s.info.now with
  | error e => rw [session_eq_err hv] at he; cases he
  | ok i =>
    have hfr := newVersion_frame hv
    have hwf := newVersion_ok_gapFree h.wf.1 h.wf.2 hv
    have hk : Kept inv i n (session w inv s).obj := by
      rw [session_eq_rest hv]
      have h0 : Kept inv i n ⟨i, [], s.echo, []⟩ := by
        refine ⟨⟨[], rfl⟩, ⟨n + 1, hwf, Nat.le_refl _, ?_⟩, hfr.1, hfr.2.1, hfr.2.2.1⟩
        rintro p ⟨d, l, hd, hp⟩
        exact (h.files p ⟨d, l, by rw [← hfr.2.2.2.2.2.1]; exact hd, hp⟩).mono (by omega)
      exact (kept_inv h.cdir).rest h0 (safe_calls hs)
    obtain ⟨ops, hops⟩ := hk.run
    refine ⟨.newVersion s.info.msg s.info.userName s.info.userAddress s.info.now :: ops, ?_⟩
    show (newVersion inv _ _ _ _ >>= fun i => run i ops) = _
    rw [hv]; exact hops

/-- **C187, the part that holds.** An object whose digests have small letters — a new object, in particular — keeps that
through any sequence of sessions, completed or not; so every digest occurs once, regardless of case. -/
theorem C187_small_partial {w : World} {inv0 inv : Inv} {fs0 fs : FS} {n : Nat} (h0 : Sound inv0 n)
    (hl : Later w (SafeNames w) inv0 fs0 inv fs) (hd : SmallDigests inv0) : SmallDigests inv ∧ DigestsOnce inv := by
  suffices h : SmallDigests inv by
    obtain ⟨_, m, hm, _⟩ := later_keeps h0 hl
    exact ⟨h, h.once hm.keys⟩
  induction hl with
  | now => exact hd
  | aborted s t' _ hs ht hr ih => exact ih
  | @completed inv fs s i hl' hs he hmod hsame ih =>
    obtain ⟨_, m, hm, _⟩ := later_keeps h0 hl'
    obtain ⟨ops, hops⟩ := session_history hm hs he
    intro d hd
    have hd' : d ∈ mkeys (session w inv s).obj.inv.manifest := (hsame.manifest.map (·.1)).mem_iff.2 hd
    exact ((run_manifest_small hops).2 d hd').elim (ih d) id

/-! ## What fails -/

/-- **C187, in full**: a completed session on a valid object in which every digest occurs once, regardless of case, leaves
such an object. -/
def C187_full : Prop := ∀ (w : World) (p N : Nat) (inv : Inv) (s : Session), HexHash w → LowerHash w → InvOk p N inv →
  DigestsOnce inv → SafeNames w s → (session w inv s).err = none → DigestsOnce (session w inv s).obj.inv

/-- an object whose digests have capital letters -/
def capInv : Inv :=
  { newInv "a".toList exArgs.spec "sha512".toList [] [] with
    head := "v1".toList, modified := false,
    manifest := [("A0".toList, ["v1/content/x".toList])],
    versions := [("v1".toList, ⟨[], [], [], [], [("A0".toList, ["x".toList])]⟩)] }

theorem capInv_valid : ValidInv 0 1 capInv := validInv_of (by decide)

theorem capInv_ok : InvOk 0 1 capInv := by
  have V := capInv_valid
  refine ⟨⟨⟨V.versions, V.head⟩, V.stateKeys⟩, rfl, ⟨V.manifestKeys, by decide, (fun a m hm => by cases hm)⟩, V.id, V.spec,
    V.contentDirectory, .inl rfl, V.used, ⟨?_, V.nonempty.1⟩, V.nonempty.2, (fun a mm d hm => by cases hm), V.paths, V.noConflict, V.content⟩
  intro v ver d hv hd
  obtain ⟨ps, hps⟩ := mem_mkeys_iff.1 hd
  exact V.covered v ver d ps hv hps

theorem capSession_names : SafeNames exKeep (exSession "y".toList) := by
  intro x hx i hi
  have : x = ("y".toList, []) := by simpa [Session.uses, exSession, callsUses, Call.uses] using hx
  subst this
  cases hi
  exact ⟨0, by decide⟩

/-- C187 is violated: the same content is added once more.  Its digest is not found among those with capital letters, the
content is stored a second time, and the manifest has the digest twice. -/
theorem C187_full_fails : ¬ C187_full := by
  intro h
  have h1 := h exKeep 0 1 capInv (exSession "y".toList) (codecWorld_hex _) exKeep_lower capInv_ok (by unfold DigestsOnce; decide)
    capSession_names (by decide)
  unfold DigestsOnce at h1
  exact absurd h1 (by decide)

/-- what the manifest is then -/
example : (session exKeep capInv (exSession "y".toList)).obj.inv.manifest =
    [("A0".toList, ["v1/content/x".toList]), ("a0".toList, ["v2/content/y".toList])] := by decide

/-- The checks of the inventory, on loading and validation, do not report it. -/
theorem C187_unseen (env : Env) : ∃ r, InvAccepted env r ∧ ¬ DigestsOnce r.inv := by
  refine ⟨rawOf (session exKeep capInv (exSession "y".toList)).obj.inv,
    (C183_accepted_iff env _).2 ((C183_accepted_iff exEnv _).1 (accepted_of (by decide))), ?_⟩
  unfold DigestsOnce
  decide

/-- the hypotheses of `C187_small_partial` are met by a new object and a session -/
example : SmallDigests (stampInv (fun t => t) (session exKeep lifeInv0 (exSession "c/d".toList)).obj.inv) :=
  have h0 : Sound lifeInv0 0 := ⟨newInv_wf _ _ _ _ _, by decide, ⟨by decide, by decide, by decide, by decide⟩, by
    rintro p ⟨d, l, hd, _⟩; cases hd⟩
  (C187_small_partial (w := exKeep) (fs0 := []) h0 (.completed (exSession "c/d".toList) _ .now exNames (by decide) (by decide)
    (sameInv_refl _)) (by intro d hd; cases hd)).1

end Gocfl
