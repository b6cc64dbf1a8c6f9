import Verif.Model.Root
import Verif.Model.Layout
import Verif.Props.Stored
import Verif.Props.PathChecks
import Verif.Props.Declaration

/-!
# Objects of a storage root: C57, C72, C73, C74
-/

namespace Gocfl

/-! ## What a session does to the root inventory -/

theorem run_id {inv inv' : Inv} {ops : List Op} (h : run inv ops = .ok inv') : inv'.id = inv.id := by
  induction ops generalizing inv with
  | nil => cases h; rfl
  | cons op ops ih =>
    simp only [run] at h
    obtain ⟨i, hi, h⟩ := res_bind_eq_ok.1 h
    rw [ih h]
    by_cases hop : ∃ m u a t, op = .newVersion m u a t
    · obtain ⟨m, u, a, t, rfl⟩ := hop
      exact (newVersion_frame hi).2.2.2.2.2.2.2.2.1
    · exact (step_headOnly (fun m u a t h => hop ⟨m, u, a, t, h⟩) hi).id

theorem sessionOpen_id {w : World} {inv : Inv} {n : Nat} (h : WF inv n) (s : Session) :
    (sessionOpen w inv s).obj.inv.id = inv.id := by
  rcases sessionOpen_good (w := w) h s.usesIn with hg | ⟨_, h2, _⟩
  · obtain ⟨ops, hops⟩ := hg.run
    exact run_id hops
  · rw [h2]

/-- A session leaves the root inventory as it is, or stores an inventory with the same id. -/
theorem session_root {w : World} {inv : Inv} {n : Nat} (h : WF inv n) (hc : ValidComp inv.contentDir) {s : Session}
    (hs : SafeNames w s) (fs : FS) :
    mget (applyOps fs (session w inv s).obj.trace) rootInvPath = mget fs rootInvPath ∨
    ∃ i : Inv, i.id = inv.id ∧ mget (applyOps fs (session w inv s).obj.trace) rootInvPath = some (w.enc i) := by
  have hnew : ∀ op ∈ (sessionOpen w inv s).obj.trace, op.path ≠ rootInvPath := fun op hop =>
    newPath_ne_old hc (fun p a i hu hi => hs (p, a) hu i hi) (sessionOpen_trace h s op hop) (Or.inl rfl)
  unfold session
  cases he : (sessionOpen w inv s).err with
  | some e => rw [andThen_some he]; exact Or.inl (mget_applyOps_ne hnew)
  | none =>
    rw [andThen_none he]
    rcases closeObj_cases w (sessionOpen w inv s).obj s.exts with ⟨h1, _⟩ | ⟨_, _, _, h1, _⟩ | ⟨_, _, f, _, h1⟩
    · rw [h1]; exact Or.inl (mget_applyOps_ne hnew)
    · rw [h1]; exact Or.inl (mget_applyOps_ne hnew)
    · right
      refine ⟨(sessionOpen w inv s).obj.inv, sessionOpen_id h s, ?_⟩
      rw [h1]
      show mget (applyOps fs ((sessionOpen w inv s).obj.trace ++ _)) rootInvPath = _
      rw [applyOps_append, applyOps_append]
      rw [mget_applyOps_ne (t := extWrites s.exts)]
      · unfold rootWrites
        rw [applyOps_append, mget_writeFile_ne _ _ (root_ne_sidecar _).symm, mget_writeFile]
      · intro op hop
        obtain ⟨k, hk⟩ := mem_extWrites_path hop
        rw [hk]; exact ne_of_head (head_ext k) head_rootInv (by decide)

/-! ## C57 -/

/-- decoding keeps the id -/
def KeepsId (w : World) : Prop := ∀ i r, w.dec (w.enc i) = some r → r.inv.id = i.id

/-- The storage roots that come out of creating objects and of sessions with new and with opened objects, all ids from
`I`.  Sessions may end with any error. -/
inductive Reached (w : World) (env : Env) (plain : Bool) (blank : Inv) (ls : List (Str → Res Str)) (I : Str → Prop) :
    FS → Prop
  | start (fs : FS) : (∀ f, mget fs (under f rootInvPath) = none) → Reached w env plain blank ls I fs
  | create {fs : FS} (a : CreateArgs) (id : Str) : Reached w env plain blank ls I fs → I id →
      Reached w env plain blank ls I (applyOps fs (createObject ls a fs id).1)
  | add {fs : FS} (a : CreateArgs) (id : Str) (s : Session) {folder : Str} {inv : Inv} :
      Reached w env plain blank ls I fs → I id → (createObject ls a fs id).2 = .ok (folder, inv) →
      ValidComp inv.contentDir → SafeNames w s →
      Reached w env plain blank ls I (applyOps (applyOps fs (createObject ls a fs id).1)
        ((session w inv s).obj.trace.map (FsOp.lift folder)))
  | update {fs : FS} (id : Str) (s : Session) {inv : Inv} {f : List Fnd} {n : Nat} :
      Reached w env plain blank ls I fs → I id → loadByID w env plain blank ls fs id = .ok (inv, f) → WF inv n →
      ValidComp inv.contentDir → SafeNames w s →
      Reached w env plain blank ls I
        (applyOps fs ((session w inv s).obj.trace.map (FsOp.lift (rootPath ls id).1)))

/-- C57 in full: creating in an occupied folder is refused and writes nothing, opening an object by id returns an
object with that id. -/
def C57_full : Prop :=
  ∀ (w : World) (env : Env) (plain : Bool) (blank : Inv) (ls : List (Str → Res Str)) (fs : FS), KeepsId w →
    Reached w env plain blank ls (fun _ => True) fs →
    (∀ a id p, mget fs (under (rootPath ls id).1 p) ≠ none →
      (createObject ls a fs id).1 = [] ∧ ∃ e, (createObject ls a fs id).2 = .error e) ∧
    ∀ id inv f, loadByID w env plain blank ls fs id = .ok (inv, f) → inv.id = id

/-- **C57, creating.** Creating an object in an occupied folder is refused and changes nothing, in every storage
root. -/
theorem C57_occupied_refused (ls : List (Str → Res Str)) (a : CreateArgs) (fs : FS) (id p : Str)
    (h : mget fs (under (rootPath ls id).1 p) ≠ none) :
    (createObject ls a fs id).1 = [] ∧ ∃ e, (createObject ls a fs id).2 = .error e := by
  have hne : subFS fs (rootPath ls id).1 ≠ [] := by
    intro h0
    rw [← mget_subFS, h0] at h
    exact h rfl
  unfold createObject initObject
  by_cases hd : mget (subFS fs (rootPath ls id).1) (declName a.version) ≠ none
  · simp only [if_pos hd]; exact ⟨rfl, _, rfl⟩
  · simp only [if_neg hd, if_pos hne]; exact ⟨rfl, _, rfl⟩

theorem createObject_ok {ls : List (Str → Res Str)} {a : CreateArgs} {fs : FS} {id folder : Str} {inv : Inv}
    (h : (createObject ls a fs id).2 = .ok (folder, inv)) :
    folder = (rootPath ls id).1 ∧ inv = newInv id a.spec a.alg a.contentDir a.fixity ∧ subFS fs folder = [] ∧
      (createObject ls a fs id).1 = (writeFile (declName a.version) (asBytes (objDecl ++ a.version ++ "\n".toList))).map
        (FsOp.lift folder) := by
  unfold createObject at h ⊢
  simp only at h ⊢
  obtain ⟨i, h1, h2⟩ := res_bind_eq_ok.1 h
  have hf : folder = (rootPath ls id).1 ∧ i = inv := by
    split at h2
    · cases h2
    · cases h2; exact ⟨rfl, rfl⟩
  obtain ⟨rfl, rfl⟩ := hf
  unfold initObject at h1 ⊢
  split at h1
  · cases h1
  · rename_i hd
    split at h1
    · cases h1
    · rename_i hn
      have hn : subFS fs (rootPath ls id).1 = [] := by
        by_contra h; exact hn h
      rw [hn]
      simp only
      split at h1
      · cases h1
        refine ⟨?_, ?_, ?_, ?_⟩ <;> trivial
      · cases h1

theorem declName_ne_root (v : Str) : declName v ≠ rootInvPath := by
  intro h
  have := congrArg List.head? h
  revert this
  show ¬ (some '0' = some 'i')
  decide

/-- creating writes no inventory -/
theorem createObject_root (ls : List (Str → Res Str)) (a : CreateArgs) (fs : FS) (id f : Str) (hf : Apart (rootPath ls id).1 f ∨ (rootPath ls id).1 = f) :
    mget (applyOps fs (createObject ls a fs id).1) (under f rootInvPath) = mget fs (under f rootInvPath) := by
  unfold createObject
  simp only
  rcases hf with hf | rfl
  · exact mget_lift_apart hf _ _ _
  · apply mget_applyOps_ne
    intro op hop
    obtain ⟨o, ho, rfl⟩ := List.mem_map.1 hop
    rw [lift_path]
    intro he
    have hp := under_inj.1 he
    unfold initObject at ho
    split at ho
    · cases ho
    · split at ho
      · cases ho
      · rw [mem_writeFile_path ho] at hp
        exact declName_ne_root _ hp

theorem finalize_id {env : Env} {r : RawInv} {x : Inv × List Fnd} (h : finalize env r = .ok x) : x.1.id = r.inv.id := by
  obtain ⟨i, f⟩ := x
  obtain ⟨a, b, _, _, _, rfl⟩ := finalize_ok h
  rfl

/-- opening by id, without the made up inventory -/
theorem loadByID_ok {w : World} {env : Env} {blank : Inv} {ls : List (Str → Res Str)} {fs : FS} {id : Str} {inv : Inv}
    {f : List Fnd} (h : loadByID w env true blank ls fs id = .ok (inv, f)) :
    (rootPath ls id).2 = false ∧ ∃ b r, mget fs (under (rootPath ls id).1 rootInvPath) = some b ∧ w.dec b = some r ∧
      inv.id = r.inv.id := by
  unfold loadByID at h
  split at h
  · cases h
  · rename_i h0
    refine ⟨by simpa using h0, ?_⟩
    unfold loadByFolder at h
    split at h
    · unfold loadInventory at h
      split at h
      · cases h
      · obtain ⟨b, r, x, g, h1, h2, h3, _, h5, _⟩ := loadRoot_ok h
        refine ⟨b, r, by rw [← mget_subFS]; exact h1, h2, ?_⟩
        rw [h5]; exact finalize_id h3
    · cases h

/-- **C57, the part that holds**: with a layout that gives different ids (among those in use) folders none of which is
the other or lies inside it, and with missing inventories reported, an object opened by id has that id. -/
theorem C57_opens_own_partial {w : World} {env : Env} {blank : Inv} {ls : List (Str → Res Str)} {I : Str → Prop}
    (hid : KeepsId w) (hap : ∀ id id', I id → I id' → id ≠ id' → Apart (rootPath ls id).1 (rootPath ls id').1)
    {fs : FS} (h : Reached w env true blank ls I fs) {id : Str} (hI : I id) {inv : Inv} {f : List Fnd}
    (hl : loadByID w env true blank ls fs id = .ok (inv, f)) : inv.id = id := by
  have key : ∀ id b r, I id → mget fs (under (rootPath ls id).1 rootInvPath) = some b → w.dec b = some r →
      r.inv.id = id := by
    clear hl hI
    induction h with
    | start fs h0 => intro id b r _ hb _; rw [h0] at hb; cases hb
    | create a id' _ hI' ih =>
      intro id b r hI hb hd
      refine ih id b r hI ?_ hd
      rw [createObject_root] at hb
      · exact hb
      · by_cases he : id' = id
        · exact Or.inr (by rw [he])
        · exact Or.inl (hap _ _ hI' hI he)
    | @add fs a id' s folder inv' _ hI' hc hcd hs ih =>
      intro id b r hI hb hd
      obtain ⟨rfl, rfl, _, _⟩ := createObject_ok hc
      by_cases he : id' = id
      · subst he
        rw [mget_lift_under _ _ _ _ _ (fun q => mget_subFS _ _ q)] at hb
        rcases session_root (w := w) (newInv_wf _ _ _ _ _) hcd hs
          (subFS (applyOps fs (createObject ls a fs id').1) (rootPath ls id').1) with h1 | ⟨i, h1, h2⟩
        · rw [h1, mget_subFS, createObject_root _ _ _ _ _ (Or.inr rfl)] at hb
          exact ih id' b r hI hb hd
        · rw [h2] at hb
          cases hb
          rw [hid i r hd, h1]; rfl
      · rw [mget_lift_apart (hap _ _ hI' hI he), createObject_root _ _ _ _ _ (Or.inl (hap _ _ hI' hI he))] at hb
        exact ih id b r hI hb hd
    | @update fs id' s inv' f' n _ hI' hl hwf hcd hs ih =>
      intro id b r hI hb hd
      by_cases he : id' = id
      · subst he
        rw [mget_lift_under _ _ _ _ _ (fun q => mget_subFS _ _ q)] at hb
        rcases session_root (w := w) hwf hcd hs (subFS fs (rootPath ls id').1) with h1 | ⟨i, h1, h2⟩
        · rw [h1, mget_subFS] at hb
          exact ih id' b r hI hb hd
        · rw [h2] at hb
          cases hb
          obtain ⟨_, b', r', h3, h4, h5⟩ := loadByID_ok hl
          rw [hid i r hd, h1, h5]
          exact ih id' b' r' hI h3 h4
      · rw [mget_lift_apart (hap _ _ hI' hI he)] at hb
        exact ih id b r hI hb hd
  obtain ⟨_, b, r, h1, h2, h3⟩ := loadByID_ok hl
  rw [h3]
  exact key id b r hI h1 h2

/-! ## C72: a created object is found again -/

/-- C72 in full: an object that was created and given a version in a complete session is opened again by its id, and
it is the inventory that was stored. -/
def C72_full : Prop :=
  ∀ (w : World) (env : Env) (plain : Bool) (blank : Inv) (ls : List (Str → Res Str)) (a : CreateArgs) (fs : FS)
    (id folder : Str) (inv : Inv) (s : Session),
    Codec w → HexHash w → (mkeys fs).Nodup → IsVersionNum a.version → '=' ∉ a.alg →
    (createObject ls a fs id).2 = .ok (folder, inv) → ValidComp inv.contentDir → SafeNames w s →
    (session w inv s).err = none → (session w inv s).obj.inv.modified = true →
    NoEmptyPath (session w inv s).obj.inv →
    ∃ i f, loadByID w env plain blank ls (applyOps (applyOps fs (createObject ls a fs id).1)
        ((session w inv s).obj.trace.map (FsOp.lift folder))) id = .ok (i, f) ∧
      SameInv (stampInv w.time (session w inv s).obj.inv) i ∧ i.id = id

theorem declFind_none {pre s : Str} (h : '=' ∉ s) : declFind pre s = none := by
  induction s with
  | nil => rfl
  | cons c s ih =>
    have h1 : declHere pre (c :: s) = none := by
      unfold declHere
      rw [if_neg]
      intro hp
      obtain ⟨t, ht⟩ := List.isPrefixOf_iff_prefix.1 hp
      apply h
      rw [← ht]
      show '=' ∈ '0' :: '=' :: (pre ++ t)
      simp
    simp only [declFind, h1]
    exact ih (fun hs => h (List.mem_cons_of_mem _ hs))

theorem getVersionLoop_skip {pre v : Str} {l r : List DirEnt} (hl : ∀ e ∈ l, declFind pre e.name = none) :
    getVersionLoop pre v (l ++ r) = getVersionLoop pre v r := by
  induction l with
  | nil => rfl
  | cons e l ih =>
    rw [List.cons_append, getVersionLoop]
    rw [hl e (by simp), ih (fun x hx => hl x (by simp [hx]))]
    simp

/-- the declaration of `Init` among files whose names have no equals sign -/
theorem getVersion_topFiles {v : Str} (hv : IsVersionNum v) {ofs : FS} (hn : (mkeys ofs).Nodup)
    (hd : mget ofs (declName v) = some (asBytes (objDecl ++ v ++ "\n".toList)))
    (hk : ∀ k, mget ofs k ≠ none → '/' ∉ k → k = declName v ∨ '=' ∉ k) :
    getVersion objDecl (topFiles ofs) = .version v := by
  have hasc : ∀ c ∈ v, c.toNat < 128 ∧ c ≠ '/' := by
    obtain ⟨a, b, _, _, ha, hb, rfl⟩ := hv
    have hdig : ∀ c : Char, c.isDigit = true → c.toNat < 128 ∧ c ≠ '/' := by
      intro c hc
      refine ⟨?_, by rintro rfl; exact absurd hc (by decide)⟩
      unfold Char.isDigit at hc
      simp only [ge_iff_le, Bool.and_eq_true, decide_eq_true_eq] at hc
      have h2 : c.val.toNat ≤ 57 := hc.2
      show c.val.toNat < 128
      omega
    intro c hc
    rcases List.mem_append.1 hc with hc | hc
    · exact hdig c (ha c hc)
    · rcases List.mem_cons.1 hc with rfl | hc
      · decide
      · exact hdig c (hb c hc)
  have hslash : '/' ∉ declName v := by
    intro h
    unfold declName at h
    simp only [List.mem_append] at h
    rcases h with h | h | h
    · exact absurd h (by decide)
    · exact absurd h (by decide)
    · exact (hasc _ h).2 rfl
  have hrt : bytesStr (asBytes (objDecl ++ v ++ "\n".toList)) = objDecl ++ v ++ "\n".toList := by
    unfold bytesStr asBytes
    rw [List.map_map]
    conv_rhs => rw [← List.map_id (objDecl ++ v ++ "\n".toList)]
    apply List.map_congr_left
    intro c hc
    have h1 : c.toNat < 128 := by
      simp only [List.mem_append] at hc
      rcases hc with (hc | hc) | hc
      · have : ∀ c ∈ objDecl, c.toNat < 128 := by decide
        exact this c hc
      · exact (hasc c hc).1
      · have : ∀ c ∈ "\n".toList, c.toNat < 128 := by decide
        exact this c hc
    show Char.ofNat (c.toNat.toUInt8).toNat = c
    rw [show (c.toNat.toUInt8).toNat = c.toNat % 256 from rfl, Nat.mod_eq_of_lt (by omega)]
    exact Char.ofNat_toNat c
  obtain ⟨l, r, hlr⟩ := List.append_of_mem (mem_of_mget hd)
  have hnd := hn
  rw [hlr] at hnd
  simp only [mkeys, List.map_append, List.map_cons] at hnd
  have hdis := List.nodup_append.1 hnd
  have hother : ∀ e ∈ l ++ r, '/' ∉ e.1 → declFind objDecl e.1 = none := by
    intro e he hs
    have hmem : e ∈ ofs := by
      rw [hlr]
      rcases List.mem_append.1 he with h | h <;> simp [h]
    rcases hk e.1 (by rw [mget_of_mem hn (v := e.2) hmem]; simp) hs with h | h
    · exfalso
      rcases List.mem_append.1 he with h1 | h1
      · exact hdis.2.2 e.1 (List.mem_map_of_mem h1) (declName v) (by simp) h
      · have := (List.nodup_cons.1 hdis.2.1).1
        exact this (h ▸ List.mem_map_of_mem h1)
    · exact declFind_none h
  have hskip : ∀ m : FS, (∀ e ∈ m, e ∈ l ++ r) → ∀ e ∈ topFiles m, declFind objDecl e.name = none := by
    intro m hm e he
    obtain ⟨x, hx, he⟩ := List.mem_filterMap.1 he
    split at he
    · cases he
    · rename_i hs
      cases he
      exact hother x (hm x hx) hs
  have htop : topFiles ofs = topFiles l ++ ownDecl objDecl v :: topFiles r := by
    rw [hlr]
    unfold topFiles
    rw [List.filterMap_append, List.filterMap_cons]
    simp only [if_neg hslash, hrt]
    rfl
  have hown : declFind objDecl (ownDecl objDecl v).name = some v := by
    have h0 := C59_own_declaration (pre := objDecl) hv (l := []) (r := []) (by simp) (by simp)
    unfold getVersion at h0
    simp only [List.nil_append, getVersionLoop] at h0
    simp only [ownDecl] at h0 ⊢
    cases hx : declFind objDecl ("0=".toList ++ (objDecl ++ v)) with
    | none => rw [hx] at h0; simp at h0
    | some x =>
      rw [hx] at h0
      simp only at h0
      by_cases hc : objDecl ++ v ++ "\n".toList ≠ objDecl ++ x ++ "\n".toList ∧
          objDecl ++ v ++ "\n".toList ≠ objDecl ++ x ++ "\r\n".toList
      · rw [if_pos hc] at h0; simp at h0
      · rw [if_neg hc] at h0
        by_cases hx0 : x = []
        · simp [hx0] at h0
        · simpa [hx0] using h0
  have hv0 : v ≠ [] := by
    obtain ⟨a, b, h1, _, _, _, rfl⟩ := hv
    simp
  unfold getVersion
  rw [htop, getVersionLoop_skip (hskip l (fun e he => by simp [he])), getVersionLoop, hown]
  simp only [ownDecl, Bool.false_eq_true, if_false, ne_eq, not_true_eq_false]
  rw [if_neg (by simp)]
  have h2 := getVersionLoop_skip (v := v) (r := []) (hskip r (fun e he => by simp [he]))
  rw [List.append_nil] at h2
  rw [h2, getVersionLoop, if_neg hv0]

theorem stripFolder_inj {f a b r : Str} (h : stripFolder f a = some r) (h' : stripFolder f b = some r) : a = b :=
  (stripFolder_eq_some.1 h).trans (stripFolder_eq_some.1 h').symm

theorem subFS_nodup {fs : FS} (h : (mkeys fs).Nodup) (f : Str) : (mkeys (subFS fs f)).Nodup := by
  have : mkeys (subFS fs f) = (mkeys fs).filterMap (stripFolder f) := by
    unfold mkeys subFS
    rw [List.map_filterMap, List.filterMap_map]
    congr 1
    funext e
    simp only [Function.comp]
    cases stripFolder f e.1 <;> rfl
  rw [this]
  exact List.Nodup.filterMap (fun a b r ha hb => stripFolder_inj ha hb) h

theorem applyOps_nodup {fs : FS} (h : (mkeys fs).Nodup) (t : List FsOp) : (mkeys (applyOps fs t)).Nodup := by
  induction t generalizing fs with
  | nil => exact h
  | cons op t ih =>
    rw [applyOps_cons]
    apply ih
    cases op <;> exact mkeys_mset_nodup h _ _

/-- where the files of a storage come from -/
theorem mget_applyOps_some {fs : FS} {t : List FsOp} {p : Str} (h : mget (applyOps fs t) p ≠ none) :
    mget fs p ≠ none ∨ ∃ op ∈ t, op.path = p := by
  by_cases hp : ∃ op ∈ t, op.path = p
  · exact Or.inr hp
  · left
    rwa [mget_applyOps_ne] at h
    exact fun op hop he => hp ⟨op, hop, he⟩

theorem topOf_self {p : Str} (h : '/' ∉ p) : topOf p = p := by
  unfold topOf; rw [splitOn_noSep h]; rfl

theorem verName_noEq (p : Int) (n : Nat) : '=' ∉ verName p (n : Int) := by
  obtain ⟨k, hk⟩ := verName_shape p n
  rw [hk]
  have h := all_isDigit_zeros_append k n
  rw [List.all_eq_true] at h
  intro hm
  rcases List.mem_cons.1 hm with hm | hm
  · exact absurd hm (by decide)
  · exact absurd (h _ hm) (by decide)

/-- the files a session writes directly into the object's folder have no equals sign in their names -/
theorem session_top {w : World} {inv : Inv} {n : Nat} (h : WF inv n) (hc : ValidComp inv.contentDir) {s : Session}
    (hs : SafeNames w s) (ha : '=' ∉ inv.digestAlg) {op : FsOp} (hop : op ∈ (session w inv s).obj.trace)
    (hsl : '/' ∉ op.path) : '=' ∉ op.path := by
  have hnew : ∀ op ∈ (sessionOpen w inv s).obj.trace, '/' ∉ op.path → '=' ∉ op.path := by
    intro op hop hsl
    rcases newPath_top hc (fun p a i hu hi => hs (p, a) hu i hi) (sessionOpen_trace h s op hop) with ⟨k, _, h2⟩ | h2
    · rw [topOf_self hsl] at h2
      rw [h2]; exact verName_noEq _ _
    · rw [topOf_self hsl] at h2
      rw [h2]; decide
  unfold session at hop
  cases he : (sessionOpen w inv s).err with
  | some e => rw [andThen_some he] at hop; exact hnew op hop hsl
  | none =>
    rw [andThen_none he] at hop
    rcases closeObj_cases w (sessionOpen w inv s).obj s.exts with ⟨h1, _⟩ | ⟨_, _, _, h1, _⟩ | ⟨_, _, f, _, h1⟩
    · rw [h1] at hop; exact hnew op hop hsl
    · rw [h1] at hop; exact hnew op hop hsl
    · rw [h1] at hop
      rcases List.mem_append.1 hop with hop | hop
      · exact hnew op hop hsl
      · rcases List.mem_append.1 hop with hop | hop
        · rcases mem_rootWrites_path hop with h2 | h2
          · rw [h2]; decide
          · rw [h2]
            unfold rootSidecarPath
            intro hm
            rcases List.mem_append.1 hm with hm | hm
            · exact absurd hm (by decide)
            · have : (sessionOpen w inv s).obj.inv.digestAlg = inv.digestAlg := by
                rcases sessionOpen_good (w := w) h s.usesIn with hg | ⟨_, h3, _⟩
                · exact hg.alg
                · rw [h3]
              rw [this] at hm
              exact ha hm
        · obtain ⟨k, hk⟩ := mem_extWrites_path hop
          exfalso
          apply hsl
          rw [hk]
          unfold extPath
          simp

theorem gapFree_uniform {inv : Inv} {n : Nat} (h : GapFree inv n) (hp : inv.paddingLength = 0) :
    Uniform 0 (mkeys inv.versions) := by
  intro k hk
  obtain ⟨j, _, rfl⟩ := List.mem_map.1 (h.1.mem_iff.1 hk)
  exact ⟨j + 1, by omega, by simp, by rw [hp]; rfl⟩

/-- **C72, the part that holds**: if no layout extension reports an error for the id, the object is found again. -/
theorem C72_found_again_partial {w : World} {env : Env} {plain : Bool} {blank : Inv} {ls : List (Str → Res Str)}
    {a : CreateArgs} {fs : FS} {id folder : Str} {inv : Inv} {s : Session} (hc : Codec w) (hx : HexHash w)
    (hn : (mkeys fs).Nodup) (hv : IsVersionNum a.version) (ha : '=' ∉ a.alg) (hl : (rootPath ls id).2 = false)
    (hcr : (createObject ls a fs id).2 = .ok (folder, inv)) (hcd : ValidComp inv.contentDir) (hs : SafeNames w s)
    (he : (session w inv s).err = none) (hm : (session w inv s).obj.inv.modified = true)
    (hne : NoEmptyPath (session w inv s).obj.inv) :
    ∃ i f, loadByID w env plain blank ls (applyOps (applyOps fs (createObject ls a fs id).1)
        ((session w inv s).obj.trace.map (FsOp.lift folder))) id = .ok (i, f) ∧
      SameInv (stampInv w.time (session w inv s).obj.inv) i ∧ i.id = id := by
  obtain ⟨rfl, rfl, hemp, htr⟩ := createObject_ok hcr
  have hwf := newInv_wf id a.spec a.alg a.contentDir a.fixity
  generalize hinv : newInv id a.spec a.alg a.contentDir a.fixity = inv at *
  have hdig : inv.digestAlg = a.alg := by rw [← hinv]; rfl
  have hpad : inv.paddingLength = 0 := by rw [← hinv]; rfl
  have hid : inv.id = id := by rw [← hinv]; rfl
  have hk : FixKeys inv := by rw [← hinv]; exact ⟨List.nodup_nil, List.nodup_nil, fun a m h => by cases h⟩
  obtain ⟨f0, t0, g1, g2, g3, g4, g5⟩ := session_stored hwf he hm
  have hu : Uniform 0 (mkeys (session w inv s).obj.inv.versions) := by
    obtain ⟨m, hm1, _⟩ := g5.wf
    rw [g2]
    exact gapFree_uniform hm1.1 (g5.pad.trans hpad)
  have hsid : (session w inv s).obj.inv.id = id := by rw [g2, sessionOpen_id hwf s, hid]
  generalize hfs1 : applyOps fs (createObject ls a fs id).1 = fs1
  generalize hfs2 : applyOps fs1 ((session w inv s).obj.trace.map (FsOp.lift (rootPath ls id).1)) = fs2
  have h1 : ∀ p, mget (subFS fs1 (rootPath ls id).1) p =
      mget (applyOps [] (writeFile (declName a.version) (asBytes (objDecl ++ a.version ++ "\n".toList)))) p := by
    intro p
    rw [← hfs1, htr, mget_subFS_lift, hemp]
  have h2 : ∀ p, mget (subFS fs2 (rootPath ls id).1) p =
      mget (applyOps (subFS fs1 (rootPath ls id).1) (session w inv s).obj.trace) p := by
    intro p; rw [← hfs2, mget_subFS_lift]
  obtain ⟨i, f, k1, k2, _⟩ := C24_stored_inventories_load_partial hc hx (env := env)
    (fs := subFS fs1 (rootPath ls id).1) hwf hk (p := 0) (by rw [hpad]; rfl) he hm hne hu
  have hload : loadRoot w env (subFS fs2 (rootPath ls id).1) = .ok (i, f) := by
    rw [← k1]; exact loadRoot_congr (h2 _) (fun _ => h2 _)
  have hroot : mget (subFS fs2 (rootPath ls id).1) rootInvPath ≠ none := by
    intro h0
    unfold loadRoot at hload
    rw [h0] at hload; cases hload
  have hdecl : mget (subFS fs1 (rootPath ls id).1) (declName a.version) =
      some (asBytes (objDecl ++ a.version ++ "\n".toList)) := by rw [h1, mget_writeFile]
  have hdsl : '/' ∉ declName a.version ∧ '=' ∈ declName a.version := by
    obtain ⟨x, y, _, _, hx, hy, hxy⟩ := hv
    constructor
    · intro h
      unfold declName at h
      rw [hxy] at h
      simp only [List.mem_append, List.mem_cons] at h
      rcases h with h | h | h | h | h
      · exact absurd h (by decide)
      · exact absurd h (by decide)
      · exact absurd (hx _ h) (by decide)
      · exact absurd h (by decide)
      · exact absurd (hy _ h) (by decide)
    · exact List.mem_append_left _ (by decide)
  have htop : ∀ op ∈ (session w inv s).obj.trace, '/' ∉ op.path → '=' ∉ op.path :=
    fun op hop => session_top hwf hcd hs (by rw [hdig]; exact ha) hop
  have hver : getVersion objDecl (topFiles (subFS fs2 (rootPath ls id).1)) = .version a.version := by
    apply getVersion_topFiles hv
    · rw [← hfs2, ← hfs1]
      exact subFS_nodup (applyOps_nodup (applyOps_nodup hn _) _) _
    · rw [h2, mget_applyOps_ne, hdecl]
      intro op hop hp
      exact htop op hop (by rw [hp]; exact hdsl.1) (by rw [hp]; exact hdsl.2)
    · intro k hk0 hks
      rw [h2] at hk0
      rcases mget_applyOps_some hk0 with h | ⟨op, hop, rfl⟩
      · left
        rw [h1] at h
        rcases mget_applyOps_some h with h | ⟨op, hop, h⟩
        · exact absurd rfl h
        · rw [← h]; exact mem_writeFile_path hop
      · exact Or.inr (htop op hop hks)
  refine ⟨i, f, ?_, k2, ?_⟩
  · unfold loadByID loadByFolder loadInventory
    rw [hl, hver]
    simp only [Bool.false_eq_true, if_false]
    cases hr : mget (subFS fs2 (rootPath ls id).1) rootInvPath with
    | none => exact absurd hr hroot
    | some b => exact hload
  · rw [← k2.id]
    show (session w inv s).obj.inv.id = id
    exact hsid

/-! ## A concrete storage root -/

def exArgs : CreateArgs := ⟨"1.1".toList, "https://ocfl.io/1.1/spec/#inventory".toList, "sha512".toList, [], [], []⟩

/-- the flat layout that omits everything up to the last colon -/
def omitLayout : List (Str → Res Str) := [fun id => .ok (layout0006 ":".toList id)]

/-- the flat layout -/
def flatLayout : List (Str → Res Str) := [fun id => .ok (layout0002 id)]

/-- a layout that fails for every id -/
def failLayout : List (Str → Res Str) := [fun _ => .error (.error "digest too short")]

theorem exCreated (ls : List (Str → Res Str)) (id : Str) :
    (createObject ls exArgs [] id).2 = .ok ((rootPath ls id).1,
      newInv id exArgs.spec exArgs.alg exArgs.contentDir exArgs.fixity) := by
  unfold createObject initObject
  have h2 : subFS [] (rootPath ls id).1 = [] := rfl
  simp only [h2, mget_nil, ne_eq, not_true_eq_false, if_false]
  have h3 : exArgs.fixity.all (fun x => decide (x ∈ exArgs.allowed)) = true := rfl
  rw [if_pos h3, res_bind_ok, if_neg]
  rintro ⟨_, h⟩
  exact h rfl

theorem exNames : SafeNames exKeep (exSession "c/d".toList) := by
  intro x hx i hi
  have : x = ("c/d".toList, []) := by simpa [Session.uses, exSession, callsUses, Call.uses] using hx
  subst this
  cases hi
  exact ⟨1, by decide⟩

theorem exContent (id : Str) : ValidComp (newInv id exArgs.spec exArgs.alg exArgs.contentDir exArgs.fixity).contentDir := by
  have : (newInv id exArgs.spec exArgs.alg exArgs.contentDir exArgs.fixity).contentDir = "content".toList := rfl
  rw [this]
  refine ⟨by decide, by decide, by decide, by decide⟩

theorem exKeep_keepsId : KeepsId exKeep := by
  intro i r h
  have h1 : exKeep.dec (exKeep.enc i) = some (rawOf (stampInv (fun t => t) i)) := exDec_enc _ i
  rw [h1] at h
  cases h; rfl

theorem exVersion : IsVersionNum exArgs.version :=
  ⟨"1".toList, "1".toList, by decide, by decide, by decide, by decide, by decide⟩

/-- The storage root after creating an object and adding `c/d`, with the inventory of the session. -/
theorem exFresh (id : Str) (h : id = "info:a".toList ∨ id = "a".toList) :
    let s := session exKeep (newInv id exArgs.spec exArgs.alg exArgs.contentDir exArgs.fixity) (exSession "c/d".toList)
    s.err = none ∧ s.obj.inv.modified = true ∧ NoEmptyPath s.obj.inv := by
  rcases h with rfl | rfl
  · exact ⟨by decide, by decide, noEmptyPath_of (by decide) (by decide) (by decide)⟩
  · exact ⟨by decide, by decide, noEmptyPath_of (by decide) (by decide) (by decide)⟩

/-- the files of that storage root -/
noncomputable def exStore (ls : List (Str → Res Str)) (id : Str) : FS :=
  applyOps (applyOps [] (createObject ls exArgs [] id).1)
    ((session exKeep (newInv id exArgs.spec exArgs.alg exArgs.contentDir exArgs.fixity)
      (exSession "c/d".toList)).obj.trace.map (FsOp.lift (rootPath ls id).1))

theorem exStore_reached (env : Env) (plain : Bool) (blank : Inv) (ls : List (Str → Res Str)) (I : Str → Prop) (id : Str)
    (h : I id) : Reached exKeep env plain blank ls I (exStore ls id) :=
  .add exArgs id (exSession "c/d".toList) (.start [] (fun _ => rfl)) h (exCreated ls id) (exContent id) exNames

/-- the hypotheses of the theorem on C72 are met -/
theorem exStore_opens (env : Env) (plain : Bool) (blank : Inv) {ls : List (Str → Res Str)} {id : Str}
    (h : id = "info:a".toList ∨ id = "a".toList) (hl : (rootPath ls id).2 = false) :
    ∃ i f, loadByID exKeep env plain blank ls (exStore ls id) id = .ok (i, f) ∧ i.id = id := by
  obtain ⟨h1, h2, h3⟩ := exFresh id h
  obtain ⟨i, f, h4, _, h5⟩ := C72_found_again_partial (w := exKeep) (env := env) (plain := plain) (blank := blank)
    (ls := ls) (a := exArgs) (fs := []) (id := id) (s := exSession "c/d".toList) (codecWorld_codec _) (codecWorld_hex _) List.nodup_nil exVersion (by decide) hl (exCreated ls id) (exContent id)
    exNames h1 h2 h3
  refine ⟨i, f, ?_, h5⟩
  unfold exStore
  exact h4

/-- **C57 fails** with layout 0006: `info:a` and `urn:a` share a folder, opening `urn:a` gives the object `info:a`. -/
theorem C57_full_fails : ¬ C57_full := by
  intro hf
  obtain ⟨i, f, h1, h2⟩ := exStore_opens exEnv true (blankInv [] []) (ls := omitLayout) (Or.inl rfl) (by decide)
  have h3 := (hf exKeep exEnv true (blankInv [] []) omitLayout (exStore omitLayout "info:a".toList) exKeep_keepsId
    (exStore_reached _ _ _ _ _ _ trivial)).2 "urn:a".toList i f
  have h4 : rootPath omitLayout "urn:a".toList = rootPath omitLayout "info:a".toList := by decide
  unfold loadByID at h1 h3
  rw [h4] at h3
  have h5 := h3 h1
  rw [h2] at h5
  exact absurd h5 (by decide)

/-- **C57 fails** also for an object whose first session stored nothing, on a file system that does not return
`fs.ErrNotExist` itself: opening it gives an object without id. -/
theorem C57_full_fails_missing : ∃ (fs : FS) (i : Inv) (f : List Fnd),
    Reached exKeep exEnv false (blankInv [] []) flatLayout (fun _ => True) fs ∧
    loadByID exKeep exEnv false (blankInv [] []) flatLayout fs "a".toList = .ok (i, f) ∧ i.id ≠ "a".toList := by
  refine ⟨applyOps [] (createObject flatLayout exArgs [] "a".toList).1, blankInv [] [], [],
    .create exArgs _ (.start [] (fun _ => rfl)) trivial, ?_, by decide⟩
  have h1 : getVersion objDecl (topFiles (subFS (applyOps [] (createObject flatLayout exArgs [] "a".toList).1)
      (rootPath flatLayout "a".toList).1)) = .version "1.1".toList := by decide
  have h2 : mget (subFS (applyOps [] (createObject flatLayout exArgs [] "a".toList).1)
      (rootPath flatLayout "a".toList).1) rootInvPath = none := by decide
  unfold loadByID loadByFolder loadInventory
  rw [h1, h2]
  rfl

/-- the hypotheses of `C57_opens_own_partial` are met by the flat layout and ids without slash -/
theorem flat_apart {id id' : Str} (h : '/' ∉ id) (h' : '/' ∉ id') (hne : id ≠ id') :
    Apart (rootPath flatLayout id).1 (rootPath flatLayout id').1 := by
  have e : ∀ x : Str, (rootPath flatLayout x).1 = x := by
    intro x
    show (if layout0002 x = [] then x else layout0002 x) = x
    unfold layout0002
    split <;> rfl
  rw [e, e]
  refine ⟨hne, ?_, ?_⟩
  · rintro r rfl; exact h (by unfold under; simp)
  · rintro r rfl; exact h' (by unfold under; simp)

example : ∃ i f, loadByID exKeep exEnv true (blankInv [] []) flatLayout (exStore flatLayout "a".toList) "a".toList =
    .ok (i, f) ∧ i.id = "a".toList := by
  obtain ⟨i, f, h1, _⟩ := exStore_opens exEnv true (blankInv [] []) (ls := flatLayout) (id := "a".toList) (Or.inr rfl)
    (by decide)
  exact ⟨i, f, h1, C57_opens_own_partial (I := fun x => '/' ∉ x) exKeep_keepsId
    (fun a b ha hb hne => flat_apart ha hb hne) (exStore_reached _ _ _ _ _ _ (by decide)) (by decide) h1⟩

/-- **C72 fails**: the error of the layout is ignored when the object is created (in the folder named like the id), but
not when it is opened. -/
theorem C72_full_fails : ¬ C72_full := by
  intro hf
  obtain ⟨h1, h2, h3⟩ := exFresh "a".toList (Or.inr rfl)
  obtain ⟨i, f, h4, _⟩ := hf exKeep exEnv true (blankInv [] []) failLayout exArgs [] "a".toList
    (rootPath failLayout "a".toList).1 _ (exSession "c/d".toList) (codecWorld_codec _) (codecWorld_hex _) List.nodup_nil
    exVersion (by decide) (exCreated _ _) (exContent _) exNames h1 h2 h3
  unfold loadByID at h4
  rw [if_pos (by decide)] at h4
  cases h4

/-! ## C73: opening never invents an inventory -/

/-- C73 in full: an object that can be opened has a readable inventory file, and id, head, versions and manifest are
those of the file. -/
def C73_full : Prop :=
  ∀ (w : World) (env : Env) (plain : Bool) (blank : Inv) (fs : FS) (folder : Str) (inv : Inv) (f : List Fnd),
    loadByFolder w env plain blank fs folder = .ok (inv, f) →
    ∃ b r, mget fs (under folder rootInvPath) = some b ∧ w.dec b = some r ∧ inv.id = r.inv.id ∧ inv.head = r.inv.head ∧
      inv.versions = r.inv.versions ∧ inv.manifest = r.inv.manifest ∧ inv.digestAlg = r.inv.digestAlg

/-- **C73, the part that holds**: on file systems where reading a missing file returns `fs.ErrNotExist` itself. -/
theorem C73_from_file_partial {w : World} {env : Env} {blank : Inv} {fs : FS} {folder : Str} {inv : Inv} {f : List Fnd}
    (h : loadByFolder w env true blank fs folder = .ok (inv, f)) :
    ∃ b r, mget fs (under folder rootInvPath) = some b ∧ w.dec b = some r ∧ inv.id = r.inv.id ∧ inv.head = r.inv.head ∧
      inv.versions = r.inv.versions ∧ inv.manifest = r.inv.manifest ∧ inv.digestAlg = r.inv.digestAlg := by
  unfold loadByFolder at h
  split at h
  · unfold loadInventory at h
    split at h
    · cases h
    · obtain ⟨b, r, ⟨x, y⟩, g, h1, h2, h3, _, h5, _⟩ := loadRoot_ok h
      obtain ⟨_, _, _, _, _, rfl⟩ := finalize_ok h3
      subst h5
      exact ⟨b, r, by rw [← mget_subFS]; exact h1, h2, rfl, rfl, rfl, rfl, rfl⟩
  · cases h

example : ∃ i f, loadByFolder exKeep exEnv true (blankInv [] []) (exStore flatLayout "a".toList) "a".toList = .ok (i, f) := by
  obtain ⟨i, f, h1, _⟩ := exStore_opens exEnv true (blankInv [] []) (ls := flatLayout) (id := "a".toList) (Or.inr rfl)
    (by decide)
  exact ⟨i, f, h1⟩

/-- **C73 fails** on other file systems: of a folder that holds nothing but the declaration an object is opened. -/
theorem C73_full_fails : ¬ C73_full := by
  intro hf
  obtain ⟨fs, i, f, _, h1, _⟩ := C57_full_fails_missing
  have h2 : loadByFolder exKeep exEnv false (blankInv [] []) [("a/0=ocfl_object_1.1".toList,
      asBytes "ocfl_object_1.1\n".toList)] "a".toList = .ok (blankInv [] [], []) := by
    have h3 : getVersion objDecl (topFiles (subFS [("a/0=ocfl_object_1.1".toList, asBytes "ocfl_object_1.1\n".toList)]
        "a".toList)) = .version "1.1".toList := by decide
    have h4 : mget (subFS [("a/0=ocfl_object_1.1".toList, asBytes "ocfl_object_1.1\n".toList)] "a".toList) rootInvPath =
        none := by decide
    unfold loadByFolder loadInventory
    rw [h3, h4]
    rfl
  obtain ⟨b, r, h3, _⟩ := hf _ _ _ _ _ _ _ _ h2
  have h4 : mget [("a/0=ocfl_object_1.1".toList, asBytes "ocfl_object_1.1\n".toList)] (under "a".toList rootInvPath) =
      none := by decide
  rw [h4] at h3
  cases h3

/-! ## C74: objects never nest -/

/-- `g` is the folder of an object -/
def HasDecl (fs : FS) (g : Str) : Prop := ∃ v, mget fs (under g (declName v)) ≠ none

/-- C74 in full: a newly created object's folder neither is, contains, nor lies inside the folder of another object. -/
def C74_full : Prop :=
  ∀ (ls : List (Str → Res Str)) (a : CreateArgs) (fs : FS) (id folder g : Str) (inv : Inv),
    (createObject ls a fs id).2 = .ok (folder, inv) → HasDecl fs g → Apart folder g

/-- **C74, the part that holds**: the folder is not that of another object, and no object lies inside it. -/
theorem C74_not_around_partial {ls : List (Str → Res Str)} {a : CreateArgs} {fs : FS} {id folder g : Str} {inv : Inv}
    (h : (createObject ls a fs id).2 = .ok (folder, inv)) (hg : HasDecl fs g) :
    folder ≠ g ∧ ∀ r, g ≠ under folder r := by
  obtain ⟨rfl, _, h3, _⟩ := createObject_ok h
  obtain ⟨v, hv⟩ := hg
  constructor
  · rintro rfl
    rw [← mget_subFS, h3] at hv
    exact hv rfl
  · rintro r rfl
    have e : under (under (rootPath ls id).1 r) (declName v) = under (rootPath ls id).1 (under r (declName v)) := by
      unfold under; simp
    rw [e, ← mget_subFS, h3] at hv
    exact hv rfl

/-- **C74, the part that holds, inside**: with a layout that keeps folders apart (see C57) it is not inside one either. -/
theorem C74_apart_partial {ls : List (Str → Res Str)} {a : CreateArgs} {fs : FS} {id id' folder : Str} {inv : Inv}
    (h : (createObject ls a fs id).2 = .ok (folder, inv)) (hg : HasDecl fs (rootPath ls id').1)
    (hap : id ≠ id' → ∀ r, (rootPath ls id).1 ≠ under (rootPath ls id').1 r) : Apart folder (rootPath ls id').1 := by
  obtain ⟨h1, h2⟩ := C74_not_around_partial h hg
  obtain ⟨rfl, _⟩ := createObject_ok h
  refine ⟨h1, hap ?_, h2⟩
  rintro rfl; exact h1 rfl

example : HasDecl [("b/0=ocfl_object_1.1".toList, [])] "b".toList ∧
    ((createObject flatLayout exArgs [("b/0=ocfl_object_1.1".toList, [])] "a".toList).2.toOption).isSome = true :=
  ⟨⟨"1.1".toList, by decide⟩, by decide⟩

/-- **C74 fails**: with the flat layout the object `a/b` is created inside the object `a`. -/
theorem C74_full_fails : ¬ C74_full := by
  intro hf
  have h1 : (createObject flatLayout exArgs [("a/0=ocfl_object_1.1".toList, [])] "a/b".toList).2.isOk = true := by decide
  cases h2 : (createObject flatLayout exArgs [("a/0=ocfl_object_1.1".toList, [])] "a/b".toList).2 with
  | error e => rw [h2] at h1; cases h1
  | ok x =>
    obtain ⟨folder, inv⟩ := x
    have h3 := hf _ _ _ _ folder "a".toList inv h2 ⟨"1.1".toList, by decide⟩
    obtain ⟨rfl, _⟩ := createObject_ok h2
    exact h3.2.1 "b".toList (by decide)

end Gocfl
