import Verif.Model.Load
import Verif.Model.SessionLemmas
import Verif.Props.Versions
import Verif.Props.Crash

/-!
# Auxiliary facts about storing and loading inventories
-/

namespace Gocfl

theorem andThen_split {x : Out} {f : Obj → Out} (h : (x.andThen f).err = none) :
    x.err = none ∧ (f x.obj).err = none := by
  obtain ⟨h1, h2⟩ := andThen_err_none h
  exact ⟨h1, by rw [← h2]; exact h⟩

/-! ## Maps of the inventory -/

/-- manifest, fixity and every fixity block are maps -/
structure FixKeys (inv : Inv) : Prop where
  manifest : (mkeys inv.manifest).Nodup
  fixity : (mkeys inv.fixity).Nodup
  blocks : ∀ a m, (a, m) ∈ inv.fixity → (mkeys m).Nodup

theorem FixKeys.congr {a b : Inv} (h : FixKeys a) (hm : b.manifest = a.manifest) (hf : b.fixity = a.fixity) :
    FixKeys b :=
  ⟨by rw [hm]; exact h.manifest, by rw [hf]; exact h.fixity, by rw [hf]; exact h.blocks⟩

theorem FixKeys.setFixity {inv : Inv} (h : FixKeys inv) {alg d : Str} {l : List Str} (b : Bool) :
    FixKeys { inv with fixity := mset inv.fixity alg (mset ((mget inv.fixity alg).getD []) d l), modified := b } := by
  refine ⟨h.manifest, mkeys_mset_nodup h.fixity _ _, ?_⟩
  intro a m hm
  rcases (mem_mset_iff h.fixity).1 hm with ⟨rfl, rfl⟩ | ⟨_, hm⟩
  · apply mkeys_mset_nodup
    cases hg : mget inv.fixity alg with
    | none => simp [mkeys]
    | some m => exact h.blocks alg m (mem_of_mget hg)
  · exact h.blocks a m hm

theorem FixKeys.addFixity {inv : Inv} (h : FixKeys inv) (mp : Str) (cs : Str × Str) :
    FixKeys (addFixity inv mp cs) := by
  unfold Gocfl.addFixity
  split
  · exact h
  · simp only
    split
    · exact h.setFixity inv.modified
    · exact h.setFixity true

theorem FixKeys.addFixityFold {inv : Inv} (h : FixKeys inv) (mp : Str) (cs : AMap Str Str) :
    FixKeys (cs.foldl (fun i c => Gocfl.addFixity i mp c) inv) := by
  induction cs generalizing inv with
  | nil => exact h
  | cons c cs ih => exact ih (h.addFixity mp c)

theorem manAdd_nodup {m : DMap} (h : (mkeys m).Nodup) (mp d : Str) : (mkeys (manAdd m mp d)).Nodup := by
  unfold manAdd
  split
  · exact mkeys_mset_nodup h _ _
  · exact h

theorem FixKeys.addName {inv inv' : Inv} (h : FixKeys inv) {mp d p : Str} (ha : addName inv mp d p = .ok inv') :
    FixKeys inv' := by
  obtain ⟨_, _, _, _, _, _, _, hm, hf, _⟩ := addName_ok ha
  exact ⟨by rw [hm]; exact manAdd_nodup h.manifest _ _, by rw [hf]; exact h.fixity, by rw [hf]; exact h.blocks⟩

theorem deleteFile_fixity {inv inv' : Inv} {p : Str} (h : deleteFile inv p = .ok inv') :
    inv'.fixity = inv.fixity := by obtain ⟨s, _, rfl⟩ := deleteFile_ok h; exact setHeadState_fixity _ _

theorem FixKeys.step {inv inv' : Inv} (h : FixKeys inv) {op : Op} (hs : step inv op = .ok inv') : FixKeys inv' := by
  cases op with
  | newVersion m u a t =>
    have hf := newVersion_frame hs
    exact h.congr hf.2.2.2.2.2.1 hf.2.2.2.2.2.2.1
  | add ns mp cs =>
    obtain ⟨dig, _, hs⟩ := addFile_ok hs
    refine foldlM_inv (P := FixKeys) (fun b a b' _ hb hab => hb.addName hab) _ _ ?_ hs
    exact FixKeys.addFixityFold h mp cs
  | delete p => exact h.congr (deleteFile_manifest hs) (deleteFile_fixity hs)
  | rename a b =>
    obtain ⟨s, _, rfl⟩ := renameFile_ok hs
    exact h.congr (setHeadState_manifest _ _) (setHeadState_fixity _ _)
  | copy d c =>
    obtain ⟨_, s, _, ⟨_, rfl⟩ | ⟨_, rfl⟩⟩ := copyFile_ok hs
    · exact h
    · exact h.congr (setHeadState_manifest _ _) (setHeadState_fixity _ _)
  | echo ex pre =>
    have hs : echoDelete inv ex pre = .ok inv' := hs
    unfold echoDelete at hs
    split at hs
    · cases hs
    · exact foldlM_inv (P := FixKeys)
        (fun b a b' _ hb hab => hb.congr (deleteFile_manifest hab) (deleteFile_fixity hab)) _ _ h hs

theorem FixKeys.run {inv inv' : Inv} (h : FixKeys inv) {ops : List Op} (hr : run inv ops = .ok inv') :
    FixKeys inv' := by
  induction ops generalizing inv with
  | nil => cases hr; exact h
  | cons op ops ih =>
    obtain ⟨i, hi, hr⟩ := res_bind_eq_ok.1 hr
    exact ih (h.step hi) hr

/-! ## What a completed session has written -/

/-- the two files `EndUpdate` writes into the directory of the head version -/
def verWrites (w : World) (h : Bytes → Str) (inv : Inv) : List FsOp :=
  writeFile (verInvPath inv.head) (w.enc inv) ++
    writeFile (verSidecarPath inv.head inv.digestAlg) (sidecarText (h (w.enc inv)))

theorem storeVersion_ok {w : World} {o : Obj} (h : (storeInventory w o true false).err = none) :
    ∃ f, w.hash o.inv.digestAlg = some f ∧ storeInventory w o true false = ok (o.write (verWrites w f o.inv)) := by
  unfold storeInventory at h ⊢
  split at h
  · cases h
  · rename_i hw
    rw [if_neg hw]
    cases hh : w.hash o.inv.digestAlg with
    | none => rw [hh] at h; cases h
    | some f => exact ⟨f, rfl, by simp [ok, Obj.write, verWrites]⟩

/-- the last writes of `o` are inventory and sidecar of its head version -/
def EndsStored (w : World) (o : Obj) : Prop :=
  ∃ f t0, w.hash o.inv.digestAlg = some f ∧ o.trace = t0 ++ verWrites w f o.inv

theorem endUpdate_stored {w : World} {U : Str → Str → Prop} {inv0 : Inv} {lo : Nat} (hlo : 0 < lo)
    {rounds : List Round} (hr : ∀ r ∈ rounds, r.UsesIn U) :
    ∀ {o : Obj} {after : List Call}, GoodM w U inv0 lo o → UsesIn U after →
      (endUpdate w o after rounds).err = none → EndsStored w (endUpdate w o after rounds).obj := by
  induction rounds with
  | nil =>
    intro o after h ha he
    unfold endUpdate at he ⊢
    rw [if_neg (by rw [h.1.wr]; simp), if_neg (by rw [h.2]; simp)] at he ⊢
    obtain ⟨e1, he⟩ := andThen_split he
    have g1 := h.call hlo (echoIf_step (w := w) (U := U) (o := o))
    rw [andThen_none e1]
    obtain ⟨e2, he⟩ := andThen_split he
    have g2 := g1.call hlo (runCalls_step after ha)
    rw [andThen_none e2]
    rw [g2.1.clean g2.2, andThen_ok] at he ⊢
    obtain ⟨f, hf, hs⟩ := storeVersion_ok he
    rw [hs]
    exact ⟨f, _, hf, rfl⟩
  | cons r rs ih =>
    intro o after h ha he
    unfold endUpdate at he ⊢
    rw [if_neg (by rw [h.1.wr]; simp), if_neg (by rw [h.2]; simp)] at he ⊢
    obtain ⟨e1, he⟩ := andThen_split he
    have g1 := h.call hlo (echoIf_step (w := w) (U := U) (o := o))
    rw [andThen_none e1]
    obtain ⟨e2, he⟩ := andThen_split he
    have g2 := g1.call hlo (runCalls_step after ha)
    rw [andThen_none e2]
    rw [g2.1.clean g2.2, andThen_ok] at he ⊢
    obtain ⟨e3, he⟩ := andThen_split he
    have g3 := g2.store hlo
    rw [andThen_none e3]
    obtain ⟨e4, he⟩ := andThen_split he
    have g4 := g3.start hlo r.info false (hr r (by simp)).1
    rw [andThen_none e4]
    obtain ⟨e5, he⟩ := andThen_split he
    have g5 := g4.call hlo (runCalls_step r.body (hr r (by simp)).2.1)
    rw [andThen_none e5]
    exact ih (fun r hr' => hr r (by simp [hr'])) g5 (hr r (by simp)).2.2 he

theorem endUpdate_unmodified {w : World} {o : Obj} (hm : o.inv.modified = false) (after : List Call)
    (rounds : List Round) : endUpdate w o after rounds = ok o := by
  cases rounds <;> simp [endUpdate, hm]

/-- A session that succeeds and has changed something: what `Close` finds. -/
theorem sessionOpen_stored {w : World} {inv : Inv} {n : Nat} (h : WF inv n) {s : Session}
    (he : (sessionOpen w inv s).err = none) (hm : (sessionOpen w inv s).obj.inv.modified = true) :
    EndsStored w (sessionOpen w inv s).obj ∧
      Good w (fun p a => (p, a) ∈ s.uses) inv (n + 1) (sessionOpen w inv s).obj := by
  have hgood : Good w (fun p a => (p, a) ∈ s.uses) inv (n + 1) (sessionOpen w inv s).obj := by
    rcases sessionOpen_good (w := w) h s.usesIn with hg | ⟨_, _, he'⟩
    · exact hg
    · exact absurd he he'
  refine ⟨?_, hgood⟩
  have hu := s.usesIn
  unfold sessionOpen at he hm ⊢
  obtain ⟨e1, he⟩ := andThen_split he
  rw [andThen_none e1] at hm ⊢
  obtain ⟨e2, he⟩ := andThen_split he
  rw [andThen_none e2] at hm ⊢
  have g1 : Good w (fun p a => (p, a) ∈ s.uses) inv (n + 1)
      (startUpdate w ⟨inv, [], false, []⟩ s.info s.echo s.before).obj := by
    unfold startUpdate at e1 ⊢
    obtain ⟨e0, e1⟩ := andThen_split e1
    rw [andThen_none e0]
    unfold withInv at e0 ⊢
    cases hv : Gocfl.newVersion inv s.info.msg s.info.userName s.info.userAddress s.info.now with
    | error err => rw [hv] at e0; cases e0
    | ok i =>
      exact (Good.newVersion (o := ⟨inv, [], false, []⟩) h (Nat.le_refl _) ⟨[], rfl⟩ rfl rfl rfl (by simp) hv
        s.echo).call (by omega) (runCalls_step s.before hu.before)
  have g2 := g1.call (by omega) (runCalls_step s.body hu.body)
  cases hmod : (runCalls w (startUpdate w ⟨inv, [], false, []⟩ s.info s.echo s.before).obj s.body).obj.inv.modified with
  | false => rw [endUpdate_unmodified hmod] at hm; rw [show (ok _).obj.inv.modified = _ from hmod] at hm; cases hm
  | true => exact endUpdate_stored (by omega) hu.rounds ⟨g2, hmod⟩ hu.after he

/-- Everything a session has written when it succeeds and has changed something. -/
theorem session_stored {w : World} {inv : Inv} {n : Nat} (h : WF inv n) {s : Session}
    (he : (session w inv s).err = none) (hm : (session w inv s).obj.inv.modified = true) :
    ∃ f t0, w.hash (session w inv s).obj.inv.digestAlg = some f ∧
      (session w inv s).obj.inv = (sessionOpen w inv s).obj.inv ∧
      (sessionOpen w inv s).obj.trace = t0 ++ verWrites w f (session w inv s).obj.inv ∧
      (session w inv s).obj.trace = (sessionOpen w inv s).obj.trace ++
        (rootWrites w f (session w inv s).obj.inv ++ extWrites s.exts) ∧
      Good w (fun p a => (p, a) ∈ s.uses) inv (n + 1) (sessionOpen w inv s).obj := by
  unfold session at he hm ⊢
  obtain ⟨e1, he⟩ := andThen_split he
  rw [andThen_none e1] at hm ⊢
  rcases closeObj_cases w (sessionOpen w inv s).obj s.exts with ⟨h1, h2⟩ | ⟨_, _, _, _, h1⟩ | ⟨h1, h2, f, h3, h4⟩
  · rw [h1] at hm
    have hg := (sessionOpen_stored h e1 hm).2.wr
    have hm : (sessionOpen w inv s).obj.inv.modified = true := hm
    rcases h2 with h2 | h2
    · rw [hg] at h2; cases h2
    · rw [hm] at h2; cases h2
  · exact absurd he h1
  · rw [h4]
    obtain ⟨⟨f', t0, hf', ht0⟩, hg⟩ := sessionOpen_stored h e1 h2
    rw [h3] at hf'; cases hf'
    exact ⟨f, t0, h3, rfl, ht0, rfl, hg⟩

/-! ## Paths -/

theorem root_ne_sidecar (alg : Str) : rootInvPath ≠ rootSidecarPath alg := by
  intro h
  have := congrArg List.length h
  unfold rootInvPath rootSidecarPath at this
  rw [List.length_append] at this
  have h1 : "inventory.json".toList.length = 14 := by decide
  have h2 : "inventory.json.".toList.length = 15 := by decide
  omega

theorem verInv_ne_sidecar (v alg : Str) : verInvPath v ≠ verSidecarPath v alg := by
  intro h
  have h3 := congrArg List.length h
  unfold verInvPath verSidecarPath at h3
  rw [List.length_append, List.length_append, List.length_append] at h3
  have h1 : "/inventory.json".toList.length = 15 := by decide
  have h2 : "/inventory.json.".toList.length = 16 := by decide
  omega

theorem head_rootInv : rootInvPath.head? = some 'i' := by decide
theorem head_rootSidecar (alg : Str) : (rootSidecarPath alg).head? = some 'i' := rfl
theorem head_ext (n : Str) : (extPath n).head? = some 'e' := rfl
theorem head_verInv {v : Str} (h : v.head? = some 'v') : (verInvPath v).head? = some 'v' := by
  cases v with
  | nil => cases h
  | cons a v => cases h; rfl
theorem head_verSidecar {v : Str} (h : v.head? = some 'v') (alg : Str) : (verSidecarPath v alg).head? = some 'v' := by
  cases v with
  | nil => cases h
  | cons a v => cases h; rfl

theorem ne_of_head {a b : Str} {x y : Char} (ha : a.head? = some x) (hb : b.head? = some y) (h : x ≠ y) : a ≠ b := by
  rintro rfl
  rw [ha] at hb
  exact h (by cases hb; rfl)

theorem mem_writeFile_path {p : Str} {b : Bytes} {op : FsOp} (h : op ∈ writeFile p b) : op.path = p := by
  simp only [writeFile, List.mem_cons, List.not_mem_nil, or_false] at h
  rcases h with rfl | rfl <;> rfl

theorem mem_extWrites_path {exts : List (Str × Bytes)} {op : FsOp} (h : op ∈ extWrites exts) :
    ∃ n, op.path = extPath n := by
  unfold extWrites at h
  obtain ⟨e, _, h⟩ := List.mem_flatMap.1 h
  exact ⟨e.1, mem_writeFile_path h⟩

theorem mem_rootWrites_path {w : World} {f : Bytes → Str} {inv : Inv} {op : FsOp} (h : op ∈ rootWrites w f inv) :
    op.path = rootInvPath ∨ op.path = rootSidecarPath inv.digestAlg := by
  unfold rootWrites at h
  rcases List.mem_append.1 h with h | h
  · exact Or.inl (mem_writeFile_path h)
  · exact Or.inr (mem_writeFile_path h)

/-- the files at the end of a completed session -/
theorem stored_files {w : World} {f : Bytes → Str} {inv : Inv} {t0 : List FsOp} {exts : List (Str × Bytes)} {fs : FS}
    (hv : inv.head.head? = some 'v') :
    let fs' := applyOps fs (t0 ++ verWrites w f inv ++ (rootWrites w f inv ++ extWrites exts))
    mget fs' rootInvPath = some (w.enc inv) ∧
    mget fs' (rootSidecarPath inv.digestAlg) = some (sidecarText (f (w.enc inv))) ∧
    mget fs' (verInvPath inv.head) = some (w.enc inv) ∧
    mget fs' (verSidecarPath inv.head inv.digestAlg) = some (sidecarText (f (w.enc inv))) := by
  simp only [applyOps_append]
  have hext : ∀ (g : FS) (p : Str) (x : Char), p.head? = some x → 'e' ≠ x →
      mget (applyOps g (extWrites exts)) p = mget g p := by
    intro g p x hp hx
    apply mget_applyOps_ne
    intro op hop
    obtain ⟨n, hn⟩ := mem_extWrites_path hop
    rw [hn]
    exact ne_of_head (head_ext n) hp hx
  have hroot : ∀ (g : FS) (p : Str), p.head? = some 'v' → mget (applyOps g (rootWrites w f inv)) p = mget g p := by
    intro g p hp
    apply mget_applyOps_ne
    intro op hop
    rcases mem_rootWrites_path hop with h | h
    · rw [h]; exact ne_of_head head_rootInv hp (by decide)
    · rw [h]; exact ne_of_head (head_rootSidecar _) hp (by decide)
  refine ⟨?_, ?_, ?_, ?_⟩
  · rw [hext _ _ 'i' head_rootInv (by decide)]
    unfold rootWrites
    rw [applyOps_append, mget_writeFile_ne _ _ (root_ne_sidecar _).symm, mget_writeFile]
  · rw [hext _ _ 'i' (head_rootSidecar _) (by decide)]
    unfold rootWrites
    rw [applyOps_append, mget_writeFile]
  · rw [hext _ _ 'v' (head_verInv hv) (by decide), hroot _ _ (head_verInv hv)]
    unfold verWrites
    rw [applyOps_append, mget_writeFile_ne _ _ (verInv_ne_sidecar _ _).symm, mget_writeFile]
  · rw [hext _ _ 'v' (head_verSidecar hv _) (by decide), hroot _ _ (head_verSidecar hv _)]
    unfold verWrites
    rw [applyOps_append, mget_writeFile]

end Gocfl
