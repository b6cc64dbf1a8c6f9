import Verif.Model.VersionNames

/-! # Lemmas about the inventory operations -/

namespace Gocfl

/-! ## Frame: what a non-`NewVersion` operation may touch -/

/-- `b` differs from `a` at most in the state of the head version, the manifest, the fixity block and
the modified flag. -/
structure HeadOnly (a b : Inv) : Prop where
  head : b.head = a.head
  pad : b.paddingLength = a.paddingLength
  alg : b.digestAlg = a.digestAlg
  cdir : b.contentDirectory = a.contentDirectory
  id : b.id = a.id
  spec : b.spec = a.spec
  wr : b.writeable = a.writeable
  keys : mkeys b.versions = mkeys a.versions
  other : ∀ v, v ≠ a.head → mget b.versions v = mget a.versions v
  headMeta : ∀ ver, mget a.versions a.head = some ver →
    ∃ s, mget b.versions a.head = some { ver with state := s }

theorem HeadOnly.refl (a : Inv) : HeadOnly a a :=
  ⟨rfl, rfl, rfl, rfl, rfl, rfl, rfl, rfl, fun _ _ => rfl, fun ver h => ⟨ver.state, h⟩⟩

theorem HeadOnly.trans {a b c : Inv} (h : HeadOnly a b) (h' : HeadOnly b c) : HeadOnly a c where
  head := h'.head.trans h.head
  pad := h'.pad.trans h.pad
  alg := h'.alg.trans h.alg
  cdir := h'.cdir.trans h.cdir
  id := h'.id.trans h.id
  spec := h'.spec.trans h.spec
  wr := h'.wr.trans h.wr
  keys := h'.keys.trans h.keys
  other v hv := (h'.other v (by rw [h.head]; exact hv)).trans (h.other v hv)
  headMeta ver hver := by
    obtain ⟨s, hs⟩ := h.headMeta ver hver
    rw [← h.head] at hs
    obtain ⟨s', hs'⟩ := h'.headMeta _ hs
    exact ⟨s', by rw [← h.head, hs']⟩

theorem setHeadState_versions {inv : Inv} {v : Version} (h : mget inv.versions inv.head = some v)
    (s : DMap) :
    setHeadState inv s = { inv with versions := mset inv.versions inv.head { v with state := s } } := by
  simp [setHeadState, h]

theorem headOnly_setHeadState (inv : Inv) (s : DMap) : HeadOnly inv (setHeadState inv s) := by
  cases h : mget inv.versions inv.head with
  | none => simp only [setHeadState, h]; exact HeadOnly.refl _
  | some v =>
    rw [setHeadState_versions h]
    refine ⟨rfl, rfl, rfl, rfl, rfl, rfl, rfl, ?_, ?_, ?_⟩
    · show mkeys (mset _ _ _) = _
      rw [mkeys_mset, if_pos]
      exact mget_isSome_iff.1 (by rw [h]; rfl)
    · intro v' hv'
      exact mget_mset_ne _ (Ne.symm hv') _
    · intro ver hver
      exact ⟨s, by rw [h] at hver; cases hver; exact mget_mset_self _ _ _⟩

/-- Changing only manifest, fixity or the modified flag. -/
theorem headOnly_of_versions_eq {a b : Inv} (hh : b.head = a.head) (hp : b.paddingLength = a.paddingLength)
    (ha : b.digestAlg = a.digestAlg) (hc : b.contentDirectory = a.contentDirectory) (hi : b.id = a.id)
    (hs : b.spec = a.spec) (hw : b.writeable = a.writeable) (hv : b.versions = a.versions) :
    HeadOnly a b :=
  ⟨hh, hp, ha, hc, hi, hs, hw, by rw [hv], fun _ _ => by rw [hv], fun ver h => ⟨ver.state, by rw [hv, h]⟩⟩

theorem headState_eq_ok {inv : Inv} {s : DMap} :
    headState inv = .ok s ↔ ∃ v, mget inv.versions inv.head = some v ∧ v.state = s := by
  unfold headState
  cases h : mget inv.versions inv.head with
  | none => simp
  | some v => simp

theorem headState_setHeadState {inv : Inv} {s : DMap} (h : headState inv = .ok s) (s' : DMap) :
    headState (setHeadState inv s') = .ok s' := by
  obtain ⟨v, hv, _⟩ := headState_eq_ok.1 h
  rw [setHeadState_versions hv]
  simp [headState]

@[simp] theorem setHeadState_manifest (inv : Inv) (s : DMap) :
    (setHeadState inv s).manifest = inv.manifest := by
  unfold setHeadState; split <;> rfl
@[simp] theorem setHeadState_fixity (inv : Inv) (s : DMap) :
    (setHeadState inv s).fixity = inv.fixity := by
  unfold setHeadState; split <;> rfl
@[simp] theorem setHeadState_modified (inv : Inv) (s : DMap) :
    (setHeadState inv s).modified = inv.modified := by
  unfold setHeadState; split <;> rfl
@[simp] theorem setHeadState_head (inv : Inv) (s : DMap) :
    (setHeadState inv s).head = inv.head := by
  unfold setHeadState; split <;> rfl
@[simp] theorem setHeadState_alg (inv : Inv) (s : DMap) :
    (setHeadState inv s).digestAlg = inv.digestAlg := by
  unfold setHeadState; split <;> rfl

/-- `headState` only looks at `versions` and `head`. -/
theorem headState_congr {a b : Inv} (hv : b.versions = a.versions) (hh : b.head = a.head) :
    headState b = headState a := by unfold headState; rw [hv, hh]

/-! ## State transformers -/

/-- the state map after deleting `p` -/
def stDelete (s : DMap) (p : Str) : DMap :=
  s.map (fun e => (e.1, e.2.filter (fun q => !decide (q = p))))

/-- the state map after renaming -/
def stRename (s : DMap) (a b : Str) : DMap :=
  s.map (fun e => (e.1, e.2.map (fun q => if q = a then b else q)))

/-- the state map after appending `p` under `d` -/
def stAppend (s : DMap) (d p : Str) : DMap := mset s d (mgetD s d ++ [p])

/-- the digest `d` present as key -/
def stTouch (s : DMap) (d : Str) : DMap := mset s d (mgetD s d)

theorem deleteFile_ok {inv inv' : Inv} {p : Str} (h : deleteFile inv p = .ok inv') :
    ∃ s, headState inv = .ok s ∧ inv' = { setHeadState inv (stDelete s p) with
      modified := inv.modified || s.any (fun e => decide (p ∈ e.2)) } := by
  unfold deleteFile at h
  obtain ⟨s, hs, h⟩ := res_bind_eq_ok.1 h
  refine ⟨s, hs, ?_⟩
  simp only [setHeadState_modified] at h
  exact (Except.ok.inj h).symm

theorem deleteFile_of_headState {inv : Inv} {s : DMap} (hs : headState inv = .ok s) (p : Str) :
    deleteFile inv p = .ok { setHeadState inv (stDelete s p) with
      modified := inv.modified || s.any (fun e => decide (p ∈ e.2)) } := by
  unfold deleteFile
  rw [hs, res_bind_ok]
  simp [stDelete]

theorem renameFile_ok {inv inv' : Inv} {a b : Str} (h : renameFile inv a b = .ok inv') :
    ∃ s, headState inv = .ok s ∧ inv' = { setHeadState inv (stRename s a b) with
      modified := inv.modified || s.any (fun e => decide (a ∈ e.2)) } := by
  unfold renameFile at h
  obtain ⟨s, hs, h⟩ := res_bind_eq_ok.1 h
  refine ⟨s, hs, ?_⟩
  simp only [setHeadState_modified] at h
  exact (Except.ok.inj h).symm

theorem renameFile_of_headState {inv : Inv} {s : DMap} (hs : headState inv = .ok s) (a b : Str) :
    renameFile inv a b = .ok { setHeadState inv (stRename s a b) with
      modified := inv.modified || s.any (fun e => decide (a ∈ e.2)) } := by
  unfold renameFile
  rw [hs, res_bind_ok]
  simp [stRename]

theorem copyFile_ok {inv inv' : Inv} {dest d : Str} (h : copyFile inv dest d = .ok inv') :
    (∃ m, mget inv.manifest d = some m) ∧
    ∃ s, headState inv = .ok s ∧
      ((dest ∈ mgetD s d ∧ inv' = inv) ∨
       (dest ∉ mgetD s d ∧ inv' = { setHeadState inv (stAppend s d dest) with modified := true })) := by
  unfold copyFile at h
  cases hm : mget inv.manifest d with
  | none => rw [hm] at h; exact absurd h (by simp)
  | some m =>
    rw [hm] at h
    refine ⟨⟨m, rfl⟩, ?_⟩
    simp only at h
    obtain ⟨s, hs, h⟩ := res_bind_eq_ok.1 h
    refine ⟨s, hs, ?_⟩
    split at h
    · rename_i hc; exact Or.inl ⟨hc, (Except.ok.inj h).symm⟩
    · rename_i hc; exact Or.inr ⟨hc, (Except.ok.inj h).symm⟩

/-- Modifying only the modified flag of a head-state update. -/
theorem headOnly_setHeadState' (inv : Inv) (s : DMap) (m : Bool) :
    HeadOnly inv { setHeadState inv s with modified := m } :=
  (headOnly_setHeadState inv s).trans
    (headOnly_of_versions_eq rfl rfl rfl rfl rfl rfl rfl rfl)

theorem deleteFile_headOnly {inv inv' : Inv} {p : Str} (h : deleteFile inv p = .ok inv') :
    HeadOnly inv inv' := by
  obtain ⟨s, _, rfl⟩ := deleteFile_ok h; exact headOnly_setHeadState' _ _ _

theorem renameFile_headOnly {inv inv' : Inv} {a b : Str} (h : renameFile inv a b = .ok inv') :
    HeadOnly inv inv' := by
  obtain ⟨s, _, rfl⟩ := renameFile_ok h; exact headOnly_setHeadState' _ _ _

theorem copyFile_headOnly {inv inv' : Inv} {a b : Str} (h : copyFile inv a b = .ok inv') :
    HeadOnly inv inv' := by
  obtain ⟨_, s, _, ⟨_, rfl⟩ | ⟨_, rfl⟩⟩ := copyFile_ok h
  · exact HeadOnly.refl _
  · exact headOnly_setHeadState' _ _ _

/-! ## AddFile -/

theorem addFixity_versions (inv : Inv) (mp : Str) (cs : Str × Str) :
    (addFixity inv mp cs).versions = inv.versions ∧ (addFixity inv mp cs).head = inv.head ∧
    (addFixity inv mp cs).manifest = inv.manifest ∧
    (addFixity inv mp cs).digestAlg = inv.digestAlg ∧ HeadOnly inv (addFixity inv mp cs) := by
  unfold addFixity
  split
  · exact ⟨rfl, rfl, rfl, rfl, HeadOnly.refl _⟩
  · simp only
    split <;> exact ⟨rfl, rfl, rfl, rfl, headOnly_of_versions_eq rfl rfl rfl rfl rfl rfl rfl rfl⟩

theorem addFixity_fold (inv : Inv) (mp : Str) (cs : AMap Str Str) :
    let i := cs.foldl (fun i c => addFixity i mp c) inv
    i.versions = inv.versions ∧ i.head = inv.head ∧ i.manifest = inv.manifest ∧
    i.digestAlg = inv.digestAlg ∧ HeadOnly inv i := by
  induction cs generalizing inv with
  | nil => exact ⟨rfl, rfl, rfl, rfl, HeadOnly.refl _⟩
  | cons c cs ih =>
    obtain ⟨h1, h2, h3, h4, h5⟩ := addFixity_versions inv mp c
    obtain ⟨g1, g2, g3, g4, g5⟩ := ih (addFixity inv mp c)
    exact ⟨g1.trans h1, g2.trans h2, g3.trans h3, g4.trans h4, h5.trans g5⟩

/-- The head state after one `addName`, given the outcome of the duplicate and update checks. -/
def stAddName (s : DMap) (d p : Str) (dup upd : Bool) : DMap :=
  let s1 := stTouch s d
  let s2 := if upd then stDelete s1 p else s1
  if dup then s2 else stAppend s2 d p

/-- The manifest after one `addName`. -/
def manAdd (m : DMap) (mp d : Str) : DMap :=
  if mp ≠ [] then mset m d (mgetD m d ++ [mp]) else m

theorem digestOf_append (s : DMap) (d p : Str) : digestOf (s ++ [(d, [])]) p = digestOf s p := by
  induction s with
  | nil => simp [digestOf]
  | cons e s ih => obtain ⟨a, b⟩ := e; simp [digestOf, ih]

theorem mset_mget_self {K V : Type} [DecidableEq K] {m : AMap K V} {k : K} {v : V}
    (h : mget m k = some v) : mset m k v = m := by
  induction m with
  | nil => simp at h
  | cons e m ih =>
    obtain ⟨a, b⟩ := e
    rw [mget_cons] at h
    by_cases he : a = k
    · subst he; simp at h; subst h; simp [mset]
    · simp [he] at h; simp [mset, he, ih h]

theorem stTouch_eq (s : DMap) (d : Str) :
    stTouch s d = s ∨ (d ∉ mkeys s ∧ stTouch s d = s ++ [(d, [])]) := by
  unfold stTouch mgetD
  cases h : mget s d with
  | none => right; exact ⟨mget_eq_none_iff.1 h, by simpa using mset_fresh (mget_eq_none_iff.1 h) []⟩
  | some ps => left; simpa using mset_mget_self h

theorem digestOf_stTouch (s : DMap) (d p : Str) : digestOf (stTouch s d) p = digestOf s p := by
  rcases stTouch_eq s d with h | ⟨_, h⟩
  · rw [h]
  · rw [h, digestOf_append]

/-- `pathDigests` only depends on the digest of the path in each version. -/
theorem pathDigests_mset {vs : AMap Str Version} {k : Str} {v w : Version}
    (hk : mget vs k = some v) {p : Str} (h : digestOf w.state p = digestOf v.state p) :
    (mset vs k w).filterMap (fun e => (digestOf e.2.state p).map (fun d => (e.1, d))) =
    vs.filterMap (fun e => (digestOf e.2.state p).map (fun d => (e.1, d))) := by
  induction vs with
  | nil => simp at hk
  | cons e vs ih =>
    obtain ⟨a, b⟩ := e
    rw [mget_cons] at hk
    by_cases he : a = k
    · subst he; simp at hk; subst hk
      simp [mset, List.filterMap_cons, h]
    · simp only [he, if_false] at hk
      simp only [mset, he, if_false, List.filterMap_cons, ih hk]

theorem lastDigest_congr {a b : Inv} {p : Str} (h : pathDigests b p = pathDigests a p) :
    lastDigest b p = lastDigest a p := by unfold lastDigest; rw [h]

theorem isUpdate_congr {a b : Inv} {p d : Str} (h : pathDigests b p = pathDigests a p) :
    isUpdate b p d = isUpdate a p d := by unfold isUpdate; rw [lastDigest_congr h]

theorem pathDigests_setHeadState {inv : Inv} {s s' : DMap} (hs : headState inv = .ok s) {p : Str}
    (h : digestOf s' p = digestOf s p) : pathDigests (setHeadState inv s') p = pathDigests inv p := by
  obtain ⟨v, hv, rfl⟩ := headState_eq_ok.1 hs
  rw [setHeadState_versions hv]
  exact pathDigests_mset hv h

theorem pathDigests_of_versions {a b : Inv} (h : b.versions = a.versions) (p : Str) :
    pathDigests b p = pathDigests a p := by unfold pathDigests; rw [h]

theorem addManifest_frame (inv : Inv) (mp d : Str) :
    (addManifest inv mp d).versions = inv.versions ∧ (addManifest inv mp d).head = inv.head ∧
    (addManifest inv mp d).manifest = manAdd inv.manifest mp d ∧
    (addManifest inv mp d).fixity = inv.fixity ∧ (addManifest inv mp d).modified = inv.modified ∧
    HeadOnly inv (addManifest inv mp d) := by
  unfold addManifest manAdd
  split
  · exact ⟨rfl, rfl, rfl, rfl, rfl, headOnly_of_versions_eq rfl rfl rfl rfl rfl rfl rfl rfl⟩
  · exact ⟨rfl, rfl, rfl, rfl, rfl, HeadOnly.refl _⟩

/-- `headState` of an inventory whose head state was replaced. -/
theorem headState_set_modified {inv : Inv} {s : DMap} (h : headState inv = .ok s) (s' : DMap) (m : Bool) :
    headState { setHeadState inv s' with modified := m } = .ok s' :=
  (headState_congr rfl rfl).trans (headState_setHeadState h s')

theorem dropOld_ok {inv : Inv} {s : DMap} (hs : headState inv = .ok s) (upd : Bool) (p : Str) :
    ∃ inv', dropOld inv upd p = .ok inv' ∧
      headState inv' = .ok (if upd then stDelete s p else s) ∧
      inv'.manifest = inv.manifest ∧ inv'.fixity = inv.fixity ∧
      inv'.modified = (inv.modified || upd) ∧ HeadOnly inv inv' := by
  cases upd with
  | true =>
    unfold dropOld
    simp only [if_true]
    rw [deleteFile_of_headState hs, res_bind_ok]
    exact ⟨_, rfl, headState_set_modified hs _ _, by simp, by simp, by simp,
      headOnly_setHeadState' _ _ _⟩
  | false => exact ⟨inv, rfl, hs, rfl, rfl, by simp, HeadOnly.refl _⟩

theorem addState_ok {inv : Inv} {s : DMap} (hs : headState inv = .ok s) (dup : Bool) (d p : Str) :
    ∃ inv', addState inv dup d p = .ok inv' ∧
      headState inv' = .ok (if dup then s else stAppend s d p) ∧
      inv'.manifest = inv.manifest ∧ inv'.fixity = inv.fixity ∧
      inv'.modified = (inv.modified || !dup) ∧ HeadOnly inv inv' := by
  cases dup with
  | true => exact ⟨inv, rfl, hs, rfl, rfl, by simp, HeadOnly.refl _⟩
  | false =>
    unfold addState
    simp only [Bool.false_eq_true, if_false]
    rw [hs, res_bind_ok]
    exact ⟨_, rfl, headState_set_modified hs _ _, by simp, by simp, by simp,
      headOnly_setHeadState' _ _ _⟩

/-- `addName` succeeds when the head exists and the checks succeed; complete description. -/
theorem addName_exists {inv : Inv} {s : DMap} {d p : Str} {dup upd : Bool} (mp : Str)
    (hs : headState inv = .ok s) (hdup : alreadyExists inv p d = .ok dup)
    (hupd : isUpdate inv p d = .ok upd) : ∃ inv', addName inv mp d p = .ok inv' ∧
      headState inv' = .ok (stAddName s d p dup upd) ∧
      inv'.manifest = manAdd inv.manifest mp d ∧ inv'.fixity = inv.fixity ∧
      inv'.modified = (inv.modified || upd || !dup) ∧ HeadOnly inv inv' := by
  unfold addName
  obtain ⟨e1, e2, e3, e4, e5, e6⟩ := addManifest_frame inv mp d
  have hs1 : headState (addManifest inv mp d) = .ok s := by rw [headState_congr e1 e2]; exact hs
  rw [hdup, res_bind_ok, hs1, res_bind_ok]
  simp only
  have hs2 := headState_setHeadState hs1 (mset s d (mgetD s d))
  have hpd : pathDigests (setHeadState (addManifest inv mp d) (mset s d (mgetD s d))) p =
      pathDigests inv p :=
    (pathDigests_setHeadState hs1 (digestOf_stTouch s d p)).trans (pathDigests_of_versions e1 p)
  rw [isUpdate_congr hpd, hupd, res_bind_ok]
  obtain ⟨i3, g1, g2, g3, g4, g5, g6⟩ := dropOld_ok hs2 upd p
  rw [g1, res_bind_ok]
  obtain ⟨i4, k1, k2, k3, k4, k5, k6⟩ := addState_ok g2 dup d p
  refine ⟨i4, k1, k2, by simp [k3, g3, e3], by simp [k4, g4, e4], by simp [k5, g5, e5], ?_⟩
  exact ((e6.trans (headOnly_setHeadState _ _)).trans g6).trans k6

/-- Complete description of one successful `addName`. -/
theorem addName_ok {inv inv' : Inv} {mp d p : Str} (h : addName inv mp d p = .ok inv') :
    ∃ s dup upd, headState inv = .ok s ∧ alreadyExists inv p d = .ok dup ∧
      isUpdate inv p d = .ok upd ∧
      headState inv' = .ok (stAddName s d p dup upd) ∧
      inv'.manifest = manAdd inv.manifest mp d ∧ inv'.fixity = inv.fixity ∧
      inv'.modified = (inv.modified || upd || !dup) ∧ HeadOnly inv inv' := by
  have h0 := h
  unfold addName at h
  obtain ⟨e1, e2, -⟩ := addManifest_frame inv mp d
  obtain ⟨dup, hdup, h⟩ := res_bind_eq_ok.1 h
  obtain ⟨s, hs, h⟩ := res_bind_eq_ok.1 h
  obtain ⟨upd, hupd, -⟩ := res_bind_eq_ok.1 h
  have hs0 : headState inv = .ok s := by rw [← headState_congr e1 e2]; exact hs
  have hpd : pathDigests (setHeadState (addManifest inv mp d) (mset s d (mgetD s d))) p =
      pathDigests inv p :=
    (pathDigests_setHeadState hs (digestOf_stTouch s d p)).trans (pathDigests_of_versions e1 p)
  have hupd0 : isUpdate inv p d = .ok upd := by rw [← isUpdate_congr hpd]; exact hupd
  obtain ⟨i, hi, rest⟩ := addName_exists mp hs0 hdup hupd0
  rw [h0] at hi; cases hi
  exact ⟨s, dup, upd, hs0, hdup, hupd0, rest⟩

theorem addName_headOnly {inv inv' : Inv} {mp d p : Str} (h : addName inv mp d p = .ok inv') :
    HeadOnly inv inv' := by
  obtain ⟨_, _, _, _, _, _, _, _, _, _, h⟩ := addName_ok h; exact h

theorem foldlM_rel {α β : Type} {f : β → α → Res β} {R : β → β → Prop}
    (hr : ∀ b, R b b) (ht : ∀ a b c, R a b → R b c → R a c)
    (hs : ∀ b a b', f b a = .ok b' → R b b') :
    ∀ (l : List α) (b b' : β), l.foldlM f b = .ok b' → R b b' := by
  intro l
  induction l with
  | nil => intro b b' h; cases h; exact hr b
  | cons a l ih =>
    intro b b' h
    rw [List.foldlM_cons] at h
    obtain ⟨c, hc, h⟩ := res_bind_eq_ok.1 h
    exact ht _ _ _ (hs _ _ _ hc) (ih _ _ h)

/-- An invariant carried through a fold. -/
theorem foldlM_inv {α β : Type} {f : β → α → Res β} {P : β → Prop} {l : List α}
    (hs : ∀ b a b', a ∈ l → P b → f b a = .ok b' → P b') :
    ∀ (b b' : β), P b → l.foldlM f b = .ok b' → P b' := by
  induction l with
  | nil => intro b b' hp h; cases h; exact hp
  | cons a l ih =>
    intro b b' hp h
    rw [List.foldlM_cons] at h
    obtain ⟨c, hc, h⟩ := res_bind_eq_ok.1 h
    exact ih (fun b a b' ha => hs b a b' (List.mem_cons_of_mem _ ha)) c b'
      (hs b a c (by simp) hp hc) h

theorem addFile_ok {inv inv' : Inv} {ns : List Str} {mp : Str} {cs : AMap Str Str}
    (h : addFile inv ns mp cs = .ok inv') :
    ∃ dig, mget cs inv.digestAlg = some dig ∧
      ns.foldlM (fun i n => addName i mp (toLower dig) n)
        (cs.foldl (fun i c => addFixity i mp c) inv) = .ok inv' := by
  unfold addFile at h
  cases hm : mget cs inv.digestAlg with
  | none => rw [hm] at h; exact absurd h (by simp)
  | some dig => rw [hm] at h; exact ⟨dig, rfl, h⟩

theorem addFile_headOnly {inv inv' : Inv} {ns : List Str} {mp : Str} {cs : AMap Str Str}
    (h : addFile inv ns mp cs = .ok inv') : HeadOnly inv inv' := by
  obtain ⟨dig, _, h⟩ := addFile_ok h
  obtain ⟨_, _, _, _, h5⟩ := addFixity_fold inv mp cs
  exact h5.trans (foldlM_rel HeadOnly.refl (fun _ _ _ => HeadOnly.trans)
    (fun _ _ _ => addName_headOnly) _ _ _ h)

theorem echoDelete_headOnly {inv inv' : Inv} {ex : List Str} {pre : Str}
    (h : echoDelete inv ex pre = .ok inv') : HeadOnly inv inv' := by
  unfold echoDelete at h
  split at h
  · exact absurd h (by simp)
  · exact foldlM_rel HeadOnly.refl (fun _ _ _ => HeadOnly.trans)
      (fun _ _ _ => deleteFile_headOnly) _ _ _ h

/-- Every operation except `newVersion` only touches the head version. -/
theorem step_headOnly {inv inv' : Inv} {op : Op} (hop : ∀ m u a t, op ≠ .newVersion m u a t)
    (h : step inv op = .ok inv') : HeadOnly inv inv' := by
  cases op with
  | newVersion m u a t => exact absurd rfl (hop m u a t)
  | add ns mp cs => exact addFile_headOnly h
  | delete p => exact deleteFile_headOnly h
  | rename a b => exact renameFile_headOnly h
  | copy d c => exact copyFile_headOnly h
  | echo ex pre => exact echoDelete_headOnly h

/-! ## NewVersion -/

theorem copyMap_nodup {src : DMap} (h : (mkeys src).Nodup) (dest : DMap)
    (hd : ∀ k, k ∈ mkeys src → k ∉ mkeys dest) : copyMap dest src = dest ++ src := by
  induction src generalizing dest with
  | nil => simp [copyMap]
  | cons e src ih =>
    obtain ⟨a, b⟩ := e
    rw [mkeys_cons, List.nodup_cons] at h
    have hfresh : a ∉ mkeys dest := hd a (by simp)
    have : copyMap dest ((a, b) :: src) = copyMap (mset dest a b) src := rfl
    rw [this, mset_fresh hfresh, ih h.2]
    · simp
    · intro k hk
      simp only [mkeys, List.map_append, List.map_cons, List.map_nil, List.mem_append,
        List.mem_singleton, not_or]
      refine ⟨hd k (List.mem_cons_of_mem _ hk), ?_⟩
      rintro rfl; exact h.1 hk

/-- `NewVersion` on a gap-free inventory: complete description. -/
theorem newVersion_gapFree {inv : Inv} {n : Nat} (h : GapFree inv n) (hk : MapKeysOk inv)
    (m u a t : Str) :
    ∃ s, (n = 0 → s = []) ∧ (∀ ver, mget inv.versions inv.head = some ver → s = ver.state) ∧
      newVersion inv m u a t = .ok { inv with
        head := verName inv.paddingLength ((n + 1 : Nat) : Int)
        versions := inv.versions ++ [(verName inv.paddingLength ((n + 1 : Nat) : Int),
          { created := t, message := m, userName := u, userAddress := a, state := s })]
        writeable := true } := by
  by_cases hn : n = 0
  · subst hn
    have hh : inv.head = [] := h.head_nil_iff.2 rfl
    refine ⟨[], fun _ => rfl, ?_, ?_⟩
    · intro ver hver
      have : inv.head ∈ mkeys inv.versions := mget_isSome_iff.1 (by rw [hver]; rfl)
      obtain ⟨k, h1, h2, _⟩ := h.mem_keys.1 this; omega
    · unfold newVersion nextHead
      simp only [hh, if_true, res_bind_ok]
      have := mset_fresh h.next_not_mem
        ({ created := t, message := m, userName := u, userAddress := a, state := [] } : Version)
      have h1 : ((0 + 1 : Nat) : Int) = 1 := rfl
      rw [h1] at this ⊢
      rw [this]
  · have hpos : 0 < n := Nat.pos_of_ne_zero hn
    obtain ⟨ver, hver⟩ := h.head_version hpos
    have hh : inv.head ≠ [] := fun e => hn (h.head_nil_iff.1 e)
    have hne : verName inv.paddingLength ((n + 1 : Nat) : Int) ≠ inv.head := by
      rw [h.head_eq hpos]; intro e; have := verName_inj e; omega
    refine ⟨ver.state, fun e => absurd e hn, fun ver' hver' => by rw [hver] at hver'; cases hver'; rfl, ?_⟩
    have hnum : headNumber inv.head = some (n : Int) := by
      rw [h.head_eq hpos]; exact headNumber_verName _ hpos
    have hcast : ((n : Int) + 1) = ((n + 1 : Nat) : Int) := by simp
    unfold newVersion nextHead
    simp only [hh, if_false, hnum, res_bind_ok, hcast]
    rw [mget_mset_ne _ hne, hver]
    simp only
    have hnodup : (mkeys ver.state).Nodup := hk _ _ (mem_of_mget hver)
    have hc := copyMap_nodup hnodup [] (by intro k _; simp)
    rw [List.nil_append] at hc
    rw [hc, mset_fresh h.next_not_mem]
    have hset : ∀ (l : AMap Str Version) (k : Str) (v w : Version), k ∉ mkeys l →
        mset (l ++ [(k, v)]) k w = l ++ [(k, w)] := by
      intro l k v w hl
      induction l with
      | nil => simp [mset]
      | cons e l ih =>
        obtain ⟨x, y⟩ := e
        simp only [mkeys_cons, List.mem_cons, not_or] at hl
        simp [mset, Ne.symm hl.1, ih hl.2]
    rw [hset _ _ _ _ h.next_not_mem]

theorem newVersion_ok_gapFree {inv inv' : Inv} {n : Nat} (h : GapFree inv n) (hk : MapKeysOk inv)
    {m u a t : Str} (hr : newVersion inv m u a t = .ok inv') :
    GapFree inv' (n + 1) ∧ MapKeysOk inv' := by
  obtain ⟨s, hs0, hs1, he⟩ := newVersion_gapFree h hk m u a t
  rw [he] at hr
  cases hr
  refine ⟨⟨?_, by simp⟩, ?_⟩
  · show (mkeys (inv.versions ++ _)).Perm _
    simp only [mkeys, List.map_append, List.map_cons, List.map_nil]
    rw [List.range_succ, List.map_append]
    exact List.Perm.append h.1 (by simp)
  · intro v ver hm
    simp only [List.mem_append, List.mem_singleton, Prod.mk.injEq] at hm
    rcases hm with hm | ⟨_, rfl⟩
    · exact hk _ _ hm
    · by_cases hn : n = 0
      · rw [hs0 hn]; simp
      · obtain ⟨ver, hver⟩ := h.head_version (Nat.pos_of_ne_zero hn)
        have hn := hk _ _ (mem_of_mget hver)
        rw [← hs1 ver hver] at hn; exact hn

theorem HeadOnly.gapFree {a b : Inv} (h : HeadOnly a b) {n : Nat} (hg : GapFree a n) : GapFree b n := by
  unfold GapFree
  rw [h.keys, h.head, h.pad]; exact hg

/-! ## Well-formed states are kept -/

theorem mkeys_stDelete (s : DMap) (p : Str) : mkeys (stDelete s p) = mkeys s := by
  simp [mkeys, stDelete, List.map_map, Function.comp_def]

theorem mkeys_stRename (s : DMap) (a b : Str) : mkeys (stRename s a b) = mkeys s := by
  simp [mkeys, stRename, List.map_map, Function.comp_def]

theorem stAddName_nodup {s : DMap} (h : (mkeys s).Nodup) (d p : Str) (dup upd : Bool) :
    (mkeys (stAddName s d p dup upd)).Nodup := by
  have h1 : (mkeys (stTouch s d)).Nodup := mkeys_mset_nodup h _ _
  have h2 : (mkeys (if upd = true then stDelete (stTouch s d) p else stTouch s d)).Nodup := by
    split
    · rw [mkeys_stDelete]; exact h1
    · exact h1
  cases dup with
  | true => exact h2
  | false => exact mkeys_mset_nodup h2 _ _

/-- A property of all version states is kept if it is kept for the head state. -/
theorem HeadOnly.states {P : DMap → Prop} {a b : Inv} (h : HeadOnly a b)
    (hn : (mkeys a.versions).Nodup)
    (ha : ∀ v ver, (v, ver) ∈ a.versions → P ver.state)
    (hh : ∀ s s', headState a = .ok s → headState b = .ok s' → P s → P s') :
    ∀ v ver, (v, ver) ∈ b.versions → P ver.state := by
  intro v ver hm
  have hnb : (mkeys b.versions).Nodup := by rw [h.keys]; exact hn
  have hg := mget_of_mem hnb hm
  by_cases hv : v = a.head
  · subst hv
    cases ha' : mget a.versions a.head with
    | none =>
      rw [mget_eq_none_iff, ← h.keys] at ha'
      exact absurd (mem_mkeys_of_mem hm) ha'
    | some w =>
      refine hh w.state ver.state (headState_eq_ok.2 ⟨w, ha', rfl⟩)
        (headState_eq_ok.2 ⟨ver, by rw [h.head]; exact hg, rfl⟩) (ha _ _ (mem_of_mget ha'))
  · rw [h.other v hv] at hg
    exact ha v ver (mem_of_mget hg)

/-- `foldlM` of head-only steps keeps a property of all version states. -/
def StatesOk (P : DMap → Prop) (inv : Inv) : Prop := ∀ v ver, (v, ver) ∈ inv.versions → P ver.state

theorem mapKeysOk_iff (inv : Inv) : MapKeysOk inv ↔ StatesOk (fun s => (mkeys s).Nodup) inv := Iff.rfl

theorem deleteFile_mapKeysOk {inv inv' : Inv} {p : Str} (hn : (mkeys inv.versions).Nodup)
    (hk : MapKeysOk inv) (h : deleteFile inv p = .ok inv') : MapKeysOk inv' := by
  refine (deleteFile_headOnly h).states (P := fun s => (mkeys s).Nodup) hn hk ?_
  intro s s' hs hs' hP
  obtain ⟨s0, hs0, rfl⟩ := deleteFile_ok h
  rw [hs] at hs0; cases hs0
  rw [headState_set_modified hs] at hs'
  cases hs'
  rw [mkeys_stDelete]; exact hP

theorem step_mapKeysOk {inv inv' : Inv} {n : Nat} (hg : GapFree inv n) (hk : MapKeysOk inv) {op : Op}
    (h : step inv op = .ok inv') : MapKeysOk inv' := by
  have hn := hg.nodup
  cases op with
  | newVersion m u a t => exact (newVersion_ok_gapFree hg hk h).2
  | delete p => exact deleteFile_mapKeysOk hn hk h
  | rename a b =>
    refine (renameFile_headOnly h).states (P := fun s => (mkeys s).Nodup) hn hk ?_
    intro s s' hs hs' hP
    obtain ⟨s0, hs0, rfl⟩ := renameFile_ok h
    rw [hs] at hs0; cases hs0
    rw [headState_set_modified hs] at hs'
    cases hs'
    rw [mkeys_stRename]; exact hP
  | copy d c =>
    refine (copyFile_headOnly h).states (P := fun s => (mkeys s).Nodup) hn hk ?_
    intro s s' hs hs' hP
    obtain ⟨_, s0, hs0, ⟨_, rfl⟩ | ⟨_, rfl⟩⟩ := copyFile_ok h
    · rw [hs] at hs'; cases hs'; exact hP
    · rw [hs] at hs0; cases hs0
      rw [headState_set_modified hs] at hs'
      cases hs'
      exact mkeys_mset_nodup hP _ _
  | add ns mp cs =>
    obtain ⟨dig, _, h⟩ := addFile_ok h
    obtain ⟨h1, _, _, _, _⟩ := addFixity_fold inv mp cs
    set i0 := cs.foldl (fun i c => addFixity i mp c) inv
    have := foldlM_inv (P := fun i => (mkeys i.versions).Nodup ∧ MapKeysOk i) (l := ns)
      (f := fun i n => addName i mp (toLower dig) n) ?_ i0 inv' ?_ h
    · exact this.2
    · intro b p b' _ hP hb
      obtain ⟨s, dup, upd, hs, _, _, hs', _, _, _, ho⟩ := addName_ok hb
      refine ⟨by rw [ho.keys]; exact hP.1, ?_⟩
      refine ho.states (P := fun s => (mkeys s).Nodup) hP.1 hP.2 ?_
      intro t t' ht ht' hPt
      rw [hs] at ht; cases ht
      rw [hs'] at ht'; cases ht'
      exact stAddName_nodup hPt _ _ _ _
    · refine ⟨by rw [h1]; exact hn, ?_⟩
      intro v ver hm; rw [h1] at hm; exact hk v ver hm
  | echo ex pre =>
    have h : echoDelete inv ex pre = .ok inv' := h
    unfold echoDelete at h
    split at h
    · exact absurd h (by simp)
    · have := foldlM_inv (P := fun i => (mkeys i.versions).Nodup ∧ MapKeysOk i)
        (f := fun i n => deleteFile i n) ?_ inv inv' ⟨hn, hk⟩ h
      · exact this.2
      · intro b p b' _ hP hb
        exact ⟨by rw [(deleteFile_headOnly hb).keys]; exact hP.1, deleteFile_mapKeysOk hP.1 hP.2 hb⟩

/-- Well-formedness of an inventory with `n` versions: what every history preserves. -/
def WF (inv : Inv) (n : Nat) : Prop := GapFree inv n ∧ MapKeysOk inv

/-- number of versions opened by a history -/
def countNew (ops : List Op) : Nat :=
  (ops.filter (fun o => match o with | .newVersion .. => true | _ => false)).length

theorem step_wf {inv inv' : Inv} {n : Nat} (h : WF inv n) {op : Op} (hs : step inv op = .ok inv') :
    WF inv' (n + countNew [op]) := by
  refine ⟨?_, step_mapKeysOk h.1 h.2 hs⟩
  cases op with
  | newVersion m u a t => exact (newVersion_ok_gapFree h.1 h.2 hs).1
  | add ns mp cs => exact (addFile_headOnly hs).gapFree h.1
  | delete p => exact (deleteFile_headOnly hs).gapFree h.1
  | rename a b => exact (renameFile_headOnly hs).gapFree h.1
  | copy d c => exact (copyFile_headOnly hs).gapFree h.1
  | echo ex pre => exact (echoDelete_headOnly hs).gapFree h.1

theorem countNew_cons (op : Op) (ops : List Op) : countNew (op :: ops) = countNew [op] + countNew ops := by
  unfold countNew
  rw [← List.singleton_append, List.filter_append, List.length_append]

theorem run_wf {inv inv' : Inv} {n : Nat} (h : WF inv n) {ops : List Op}
    (hs : run inv ops = .ok inv') : WF inv' (n + countNew ops) := by
  induction ops generalizing inv n with
  | nil => cases hs; exact h
  | cons op ops ih =>
    simp only [run] at hs
    obtain ⟨i, hi, hs⟩ := res_bind_eq_ok.1 hs
    have := ih (step_wf h hi) hs
    rw [countNew_cons, ← Nat.add_assoc]; exact this

theorem newInv_wf (id spec alg cd : Str) (fa : List Str) : WF (newInv id spec alg cd fa) 0 :=
  ⟨⟨by simp [newInv], by simp [newInv]⟩, by intro v ver h; simp [newInv] at h⟩

/-- An invariant of all histories. -/
theorem run_inv {P : Inv → Prop} {n : Nat}
    (hstep : ∀ inv inv' op k, WF inv k → P inv → step inv op = .ok inv' → P inv')
    {inv inv' : Inv} {ops : List Op} (h : WF inv n) (hP : P inv) (hs : run inv ops = .ok inv') :
    P inv' := by
  induction ops generalizing inv n with
  | nil => cases hs; exact hP
  | cons op ops ih =>
    simp only [run] at hs
    obtain ⟨i, hi, hs⟩ := res_bind_eq_ok.1 hs
    exact ih (step_wf h hi) (hstep _ _ _ _ h hP hi) hs

/-- An invariant of all histories whose operations satisfy a side condition. -/
theorem run_inv_along {P : Inv → Prop} {Q : Inv → Op → Prop} {n : Nat}
    (hstep : ∀ inv inv' op k, WF inv k → P inv → Q inv op → step inv op = .ok inv' → P inv')
    {inv inv' : Inv} {ops : List Op} (h : WF inv n) (hP : P inv) (hQ : Along Q inv ops)
    (hs : run inv ops = .ok inv') : P inv' := by
  induction ops generalizing inv n with
  | nil => cases hs; exact hP
  | cons op ops ih =>
    simp only [run] at hs
    obtain ⟨i, hi, hs⟩ := res_bind_eq_ok.1 hs
    exact ih (step_wf h hi) (hstep _ _ _ _ h hP hQ.1 hi) (hQ.2 i hi) hs

end Gocfl
