import Verif.Props.Life

/-!
# C121: fixity values are recorded for every content file

An object created with further digest algorithms (`--fixity`) carries, for every content file of every version and every
one of these algorithms, the digest of its bytes, and no digest of any other algorithm.  The algorithms are not stored
as such: a later session finds them as the keys of the fixity block.
-/

namespace Gocfl

/-! ## Specification -/

/-- the content path `c` is listed in the manifest -/
def InManifest (inv : Inv) (c : Str) : Prop := ∃ d m, (d, m) ∈ inv.manifest ∧ c ∈ m

/-- the fixity block lists the content path `c` under the algorithm `a` -/
def FixityLists (inv : Inv) (a c : Str) : Prop := ∃ mm d m, (a, mm) ∈ inv.fixity ∧ (d, m) ∈ mm ∧ c ∈ m

/-- every content path is listed under every algorithm of `F`; the digest algorithm itself is kept in the manifest only -/
def FixityCovers (F : List Str) (inv : Inv) : Prop := ∀ a ∈ F, a ≠ inv.digestAlg → ∀ c, InManifest inv c → FixityLists inv a c

/-! ## A property kept by every step of a session -/

/-- `P` is kept by the inventory operations a session is made of; files are added with the checksums of the
algorithms of the inventory. -/
structure StepsKeep (w : World) (P : Inv → Prop) : Prop where
  newVersion : ∀ {inv inv' : Inv} {m u a t : Str}, P inv → Gocfl.newVersion inv m u a t = .ok inv' → P inv'
  add : ∀ {inv inv' : Inv} {ns : List Str} {mp : Str} {data : Bytes} {cs : AMap Str Str}, P inv → ns ≠ [] →
    checksums w (digestAlgs inv) data = some cs → addFile inv ns mp cs = .ok inv' → P inv'
  copy : ∀ {inv inv' : Inv} {p d : Str}, P inv → copyFile inv p d = .ok inv' → P inv'
  delete : ∀ {inv inv' : Inv} {p : Str}, P inv → deleteFile inv p = .ok inv' → P inv'
  rename : ∀ {inv inv' : Inv} {a b : Str}, P inv → renameFile inv a b = .ok inv' → P inv'
  clean : ∀ {inv inv' : Inv}, P inv → Gocfl.clean inv = .ok inv' → P inv'

section
variable {w : World} {P : Inv → Prop}

theorem withInv_keeps {o : Obj} {r : Res Inv} (h : P o.inv) (hr : ∀ i, r = .ok i → P i) : P (withInv o r).obj.inv := by
  unfold withInv
  cases hr' : r with
  | ok i => exact hr i hr'
  | error e => exact h

theorem StepsKeep.addReader (K : StepsKeep w P) {o : Obj} (h : P o.inv) {ns : List Str} (hns : ns ≠ []) (mp : Str) (data : Bytes) :
    P (addReader w o ns mp data).obj.inv := by
  unfold Gocfl.addReader
  simp only
  cases hc : checksums w (digestAlgs o.inv) data with
  | none => exact h
  | some cs => exact withInv_keeps (o := Obj.write _ _) h (fun i hi => K.add h hns hc hi)

theorem buildNames_ne {w : World} {inv : Inv} {files names : List Str} {area mp : Str} (hf : files ≠ [])
    (h : buildNames w inv files area = .ok (names, mp)) : names ≠ [] := by
  unfold buildNames at h
  obtain ⟨ns, h1, h⟩ := res_bind_eq_ok.1 h
  obtain ⟨i, h2, h⟩ := res_bind_eq_ok.1 h
  cases h
  cases files with
  | nil => exact absurd rfl hf
  | cons f fs =>
    rw [List.mapM_cons] at h1
    obtain ⟨n, _, h1⟩ := res_bind_eq_ok.1 h1
    obtain ⟨m, _, h1⟩ := res_bind_eq_ok.1 h1
    cases h1
    simp

theorem StepsKeep.echo (K : StepsKeep w P) {inv inv' : Inv} {ex : List Str} {pre : Str} (h : P inv)
    (he : echoDelete inv ex pre = .ok inv') : P inv' := by
  unfold echoDelete at he
  split at he
  · cases he
  · exact foldlM_inv (P := P) (fun b a b' _ hb hab => K.delete hb hab) _ _ h he

theorem StepsKeep.objEcho (K : StepsKeep w P) {o : Obj} (h : P o.inv) : P (objEcho w o).obj.inv := by
  unfold Gocfl.objEcho
  cases hs : w.statePath ".".toList [] with
  | error e => exact h
  | ok b => exact withInv_keeps (o := { o with updateFiles := _ }) h (fun i hi => K.echo h hi)

theorem StepsKeep.runCall (K : StepsKeep w P) {o : Obj} (h : P o.inv) (c : Call) : P (runCall w o c).obj.inv := by
  cases c with
  | add p a data cd =>
    simp only [Gocfl.runCall]
    unfold objAdd
    split
    · exact h
    · cases hb : buildNames w o.inv [p] a with
      | error e => exact h
      | ok x =>
        obtain ⟨ns, mp⟩ := x
        have hns := buildNames_ne (by simp) hb
        simp only
        split
        · cases w.hash o.inv.digestAlg with
          | none => exact h
          | some f =>
            simp only
            unfold addChecked
            split
            · exact h
            · exact h
            · split
              · exact withInv_keeps (o := { o with updateFiles := _ }) h (fun i hi => K.copy h hi)
              · exact K.addReader (o := { o with updateFiles := o.updateFiles ++ [ns.headD []] }) h hns _ _
        · exact K.addReader (o := { o with updateFiles := o.updateFiles ++ [ns.headD []] }) h hns _ _
  | reader fs a data =>
    simp only [Gocfl.runCall]
    unfold objAddReader
    split
    · exact h
    · rename_i hfs
      split
      · exact h
      · cases hb : buildNames w o.inv fs a with
        | error e => exact h
        | ok x => exact K.addReader h (buildNames_ne hfs hb) _ _
  | delete p d =>
    simp only [Gocfl.runCall]
    unfold objIfExists
    split
    · exact h
    · split
      · exact h
      · exact h
      · exact withInv_keeps h (fun i hi => K.delete h hi)
  | rename a b d =>
    simp only [Gocfl.runCall]
    unfold objIfExists
    split
    · exact h
    · split
      · exact h
      · exact h
      · exact withInv_keeps h (fun i hi => K.rename h hi)
  | beginArea => exact h
  | endArea =>
    simp only [Gocfl.runCall]
    refine andThen_good (P := fun o => P o.inv) ?_ (fun hx => hx)
    split
    · exact K.objEcho h
    · exact h
  | ext n d => exact h

theorem StepsKeep.runCalls (K : StepsKeep w P) {o : Obj} (h : P o.inv) (cs : List Call) : P (runCalls w o cs).obj.inv := by
  induction cs generalizing o with
  | nil => exact h
  | cons c cs ih =>
    simp only [Gocfl.runCalls]
    exact andThen_good (P := fun o => P o.inv) (K.runCall h c) (fun hx => ih hx)

theorem StepsKeep.startUpdate (K : StepsKeep w P) {o : Obj} (h : P o.inv) (v : VInfo) (e : Bool) (before : List Call) :
    P (startUpdate w o v e before).obj.inv := by
  unfold Gocfl.startUpdate
  refine andThen_good (P := fun o => P o.inv) ?_ (fun hx => K.runCalls hx before)
  exact withInv_keeps (o := { o with echo := e }) h (fun i hi => K.newVersion h hi)

theorem StepsKeep.store {o : Obj} (h : P o.inv) (v r : Bool) : P (storeInventory w o v r).obj.inv := by
  unfold storeInventory
  split
  · exact h
  · split <;> exact h

theorem StepsKeep.endUpdate (K : StepsKeep w P) {o : Obj} (h : P o.inv) (after : List Call) (rs : List Round) :
    P (endUpdate w o after rs).obj.inv := by
  induction rs generalizing o after with
  | nil =>
    rw [Gocfl.endUpdate]
    split
    · exact h
    · split
      · exact h
      · refine andThen_good (P := fun o => P o.inv) (by split; exacts [K.objEcho h, h]) (fun h => ?_)
        refine andThen_good (P := fun o => P o.inv) (K.runCalls h after) (fun h => ?_)
        refine andThen_good (P := fun o => P o.inv) (withInv_keeps h (fun i hi => K.clean h hi)) (fun h => ?_)
        exact StepsKeep.store h _ _
  | cons r rs ih =>
    rw [Gocfl.endUpdate]
    split
    · exact h
    · split
      · exact h
      · refine andThen_good (P := fun o => P o.inv) (by split; exacts [K.objEcho h, h]) (fun h => ?_)
        refine andThen_good (P := fun o => P o.inv) (K.runCalls h after) (fun h => ?_)
        refine andThen_good (P := fun o => P o.inv) (withInv_keeps h (fun i hi => K.clean h hi)) (fun h => ?_)
        refine andThen_good (P := fun o => P o.inv) (StepsKeep.store h _ _) (fun h => ?_)
        refine andThen_good (P := fun o => P o.inv) (K.startUpdate h _ _ _) (fun h => ?_)
        exact andThen_good (P := fun o => P o.inv) (K.runCalls h _) (fun h => ih h _)

theorem StepsKeep.session (K : StepsKeep w P) {inv : Inv} (h : P inv) (s : Session) : P (session w inv s).obj.inv := by
  unfold Gocfl.session
  refine andThen_good (P := fun o => P o.inv) ?_ (fun h => ?_)
  · unfold sessionOpen
    refine andThen_good (P := fun o => P o.inv) (K.startUpdate (o := ⟨inv, [], false, []⟩) h _ _ _) (fun h => ?_)
    exact andThen_good (P := fun o => P o.inv) (K.runCalls h _) (fun h => K.endUpdate h _ _)
  · unfold closeObj
    split
    · exact h
    · split
      · exact h
      · refine andThen_good (P := fun o => P o.inv) (withInv_keeps h (fun i hi => K.clean h hi)) (fun h => ?_)
        exact andThen_good (P := fun o => P o.inv) (StepsKeep.store h _ _) (fun h => h)

end

/-! ## The fixity block -/

theorem mget_addFixity {inv : Inv} {mp : Str} {c : Str × Str} {a : Str} {mm : DMap} (h : mget inv.fixity a = some mm) :
    ∃ mm', mget (addFixity inv mp c).fixity a = some mm' ∧ ∀ d m, mget mm d = some m → ∃ m', mget mm' d = some m' ∧ ∀ x ∈ m, x ∈ m' := by
  unfold addFixity
  split
  · exact ⟨mm, h, fun d m hm => ⟨m, hm, fun _ hx => hx⟩⟩
  · simp only
    by_cases ha : c.1 = a
    · subst ha
      have e1 : (mget inv.fixity c.1).getD [] = mm := by rw [h]; rfl
      have key : ∀ l : List Str, (∀ x ∈ mgetD mm c.2, x ∈ l) → ∀ d m, mget mm d = some m →
          ∃ m', mget (mset mm c.2 l) d = some m' ∧ ∀ x ∈ m, x ∈ m' := by
        intro l hl d m hm
        by_cases hd : c.2 = d
        · subst hd
          refine ⟨l, mget_mset_self _ _ _, fun x hx => hl x ?_⟩
          unfold mgetD; rw [hm]; exact hx
        · exact ⟨m, by rw [mget_mset_ne _ hd]; exact hm, fun _ hx => hx⟩
      split
      · exact ⟨_, mget_mset_self _ _ _, by rw [e1]; exact key _ (fun _ h => h)⟩
      · exact ⟨_, mget_mset_self _ _ _, by rw [e1]; exact key _ (fun _ h => List.mem_append_left _ h)⟩
    · split
      · exact ⟨mm, by rw [mget_mset_ne _ ha]; exact h, fun d m hm => ⟨m, hm, fun _ hx => hx⟩⟩
      · exact ⟨mm, by rw [mget_mset_ne _ ha]; exact h, fun d m hm => ⟨m, hm, fun _ hx => hx⟩⟩

/-- the content path `c` is found under the algorithm `a`, by lookups -/
def Looked (inv : Inv) (a c : Str) : Prop := ∃ mm d m, mget inv.fixity a = some mm ∧ mget mm d = some m ∧ c ∈ m

theorem Looked.lists {inv : Inv} {a c : Str} (h : Looked inv a c) : FixityLists inv a c := by
  obtain ⟨mm, d, m, h1, h2, h3⟩ := h
  exact ⟨mm, d, m, mem_of_mget h1, mem_of_mget h2, h3⟩

theorem FixityLists.looked {inv : Inv} (hk : FixKeys inv) {a c : Str} (h : FixityLists inv a c) : Looked inv a c := by
  obtain ⟨mm, d, m, h1, h2, h3⟩ := h
  exact ⟨mm, d, m, mget_of_mem hk.fixity h1, mget_of_mem (hk.blocks a mm h1) h2, h3⟩

theorem Looked.addFixity {inv : Inv} {a c : Str} (h : Looked inv a c) (mp : Str) (x : Str × Str) :
    Looked (addFixity inv mp x) a c := by
  obtain ⟨mm, d, m, h1, h2, h3⟩ := h
  obtain ⟨mm', e1, e2⟩ := mget_addFixity (mp := mp) (c := x) h1
  obtain ⟨m', e3, e4⟩ := e2 d m h2
  exact ⟨mm', d, m', e1, e3, e4 c h3⟩

theorem looked_new (inv : Inv) (mp : Str) {x : Str × Str} (hx : x.1 ≠ inv.digestAlg) : Looked (addFixity inv mp x) x.1 mp := by
  unfold addFixity
  rw [if_neg hx]
  simp only
  split
  · rename_i h
    exact ⟨_, x.2, _, mget_mset_self _ _ _, mget_mset_self _ _ _, h⟩
  · exact ⟨_, x.2, _, mget_mset_self _ _ _, mget_mset_self _ _ _, by simp⟩

theorem addFixity_frame (inv : Inv) (mp : Str) (x : Str × Str) :
    (addFixity inv mp x).digestAlg = inv.digestAlg ∧ (addFixity inv mp x).manifest = inv.manifest ∧
    (addFixity inv mp x).fixityAlgs = inv.fixityAlgs ∧
    (∀ a ∈ mkeys (addFixity inv mp x).fixity, a ∈ mkeys inv.fixity ∨ (a = x.1 ∧ a ≠ inv.digestAlg)) := by
  unfold addFixity
  split
  · exact ⟨rfl, rfl, rfl, fun a h => .inl h⟩
  · rename_i hne
    simp only
    have key : ∀ (m : AMap Str DMap) (k : Str) (v : DMap) (a : Str), a ∈ mkeys (mset m k v) → a ∈ mkeys m ∨ a = k := by
      intro m k v a ha
      obtain ⟨⟨k', v'⟩, h1, h2⟩ := List.mem_map.1 ha
      have h2 : k' = a := h2
      subst h2
      rcases mem_mset_sub h1 with e | e
      · cases e; exact .inr rfl
      · exact .inl (mem_mkeys_of_mem e)
    split <;>
    · refine ⟨rfl, rfl, rfl, fun a ha => ?_⟩
      rcases key _ _ _ _ ha with h | h
      · exact .inl h
      · exact .inr ⟨h, by rw [h]; exact hne⟩

theorem addFixity_fold_all (inv : Inv) (mp : Str) (cs : AMap Str Str) :
    let i := cs.foldl (fun i c => addFixity i mp c) inv
    i.digestAlg = inv.digestAlg ∧ i.manifest = inv.manifest ∧ i.fixityAlgs = inv.fixityAlgs ∧
    (∀ a ∈ mkeys i.fixity, a ∈ mkeys inv.fixity ∨ (a ∈ mkeys cs ∧ a ≠ inv.digestAlg)) ∧
    (∀ a c, Looked inv a c → Looked i a c) ∧ (∀ x ∈ cs, x.1 ≠ inv.digestAlg → Looked i x.1 mp) := by
  induction cs generalizing inv with
  | nil => exact ⟨rfl, rfl, rfl, fun a h => .inl h, fun _ _ h => h, fun x hx => by cases hx⟩
  | cons c cs ih =>
    obtain ⟨h1, h2, h3, h4⟩ := addFixity_frame inv mp c
    obtain ⟨g1, g2, g3, g4, g5, g6⟩ := ih (addFixity inv mp c)
    refine ⟨g1.trans h1, g2.trans h2, g3.trans h3, ?_, fun a x hx => g5 a x (hx.addFixity mp c), ?_⟩
    · intro a ha
      rcases g4 a ha with h | ⟨h, hn⟩
      · rcases h4 a h with h | ⟨h, hn⟩
        · exact .inl h
        · exact .inr ⟨by simp [mkeys, h], hn⟩
      · exact .inr ⟨by simp only [mkeys, List.map_cons, List.mem_cons]; exact .inr h, by rw [h1] at hn; exact hn⟩
    · intro x hx hn
      rcases List.mem_cons.1 hx with rfl | hx
      · exact g5 _ _ (looked_new inv mp hn)
      · exact g6 x hx (by rw [h1]; exact hn)

theorem checksums_keys {w : World} {algs : List Str} {data : Bytes} {cs : AMap Str Str}
    (h : checksums w algs data = some cs) : mkeys cs = algs := by
  unfold checksums at h
  induction algs generalizing cs with
  | nil => simp at h; subst h; rfl
  | cons a algs ih =>
    rw [List.mapM_cons] at h
    cases ha : w.hash a with
    | none => simp [ha] at h
    | some f =>
      simp only [ha, Option.map_some, Option.bind_eq_bind, Option.bind_some] at h
      cases hr : algs.mapM (fun a => (w.hash a).map (fun h => (a, h data))) with
      | none => simp [hr] at h
      | some cs' =>
        simp only [hr, Option.bind_some] at h
        cases h
        simp only [mkeys, List.map_cons]
        exact congrArg _ (ih hr)

theorem mem_digestAlgs {inv : Inv} {a : Str} : a ∈ digestAlgs inv ↔ a ∈ inv.fixityAlgs ∨ a = inv.digestAlg := by
  unfold digestAlgs
  split
  · constructor
    · exact .inl
    · rintro (h | rfl)
      · exact h
      · assumption
  · simp

/-! ## What a session keeps -/

/-- what is known of the inventory during a session: it computes the algorithms `A`; `F` cover the content, `G` are the
algorithms of the object, `O` those the block may have -/
structure FixSt (F G A O : List Str) (D : Str) (inv : Inv) : Prop where
  alg : inv.digestAlg = D
  algs : inv.fixityAlgs = A
  covers : ∀ a ∈ F, a ≠ D → ∀ c, InManifest inv c → Looked inv a c
  only : ∀ a ∈ mkeys inv.fixity, a ≠ D ∧ a ∈ O
  known : (∀ a ∈ G, a ≠ D → a ∈ mkeys inv.fixity) ∨
    (inv.manifest = [] ∧ inv.modified = false ∧ ∀ v ver, (v, ver) ∈ inv.versions → ver.state = [])

theorem setHeadState_algs (inv : Inv) (s : DMap) :
    (setHeadState inv s).fixityAlgs = inv.fixityAlgs ∧ (setHeadState inv s).digestAlg = inv.digestAlg := by
  unfold setHeadState; split <;> exact ⟨rfl, rfl⟩

theorem addName_algs {inv inv' : Inv} {mp d p : Str} (h : addName inv mp d p = .ok inv') : inv'.fixityAlgs = inv.fixityAlgs := by
  unfold addName at h
  obtain ⟨dup, _, h⟩ := res_bind_eq_ok.1 h
  obtain ⟨s, _, h⟩ := res_bind_eq_ok.1 h
  simp only at h
  obtain ⟨upd, _, h⟩ := res_bind_eq_ok.1 h
  obtain ⟨i, hi, h⟩ := res_bind_eq_ok.1 h
  have e0 : (addManifest inv mp d).fixityAlgs = inv.fixityAlgs := by unfold addManifest; split <;> rfl
  have e1 : i.fixityAlgs = inv.fixityAlgs := by
    unfold dropOld at hi
    split at hi
    · obtain ⟨j, hj, hi⟩ := res_bind_eq_ok.1 hi
      cases hi
      obtain ⟨t, _, rfl⟩ := deleteFile_ok hj
      exact ((setHeadState_algs _ _).1.trans (setHeadState_algs _ _).1).trans e0
    · cases hi
      exact (setHeadState_algs _ _).1.trans e0
  unfold addState at h
  split at h
  · cases h; exact e1
  · obtain ⟨t, _, h⟩ := res_bind_eq_ok.1 h
    cases h
    exact (setHeadState_algs _ _).1.trans e1

theorem inManifest_manAdd {m : DMap} {mp d c : Str} (h : ∃ d' l, (d', l) ∈ manAdd m mp d ∧ c ∈ l) :
    (∃ d' l, (d', l) ∈ m ∧ c ∈ l) ∨ c = mp := by
  obtain ⟨d', l, h1, h2⟩ := h
  unfold manAdd at h1
  split at h1
  · rcases mem_mset_sub h1 with e | e
    · cases e
      rcases List.mem_append.1 h2 with h | h
      · exact .inl ⟨d, _, mem_of_mget (by
          cases hg : mget m d with
          | none => rw [mgetD, hg] at h; cases h
          | some l => rw [mgetD, hg]; rfl), h⟩
      · exact .inr (by simpa using h)
    · exact .inl ⟨d', l, e, h2⟩
  · exact .inl ⟨d', l, h1, h2⟩

theorem addNames_frame {mp d : Str} {ns : List Str} {i j : Inv} (h : ns.foldlM (fun i n => addName i mp d n) i = .ok j) :
    j.digestAlg = i.digestAlg ∧ j.fixityAlgs = i.fixityAlgs ∧ j.fixity = i.fixity ∧
    ∀ c, InManifest j c → InManifest i c ∨ c = mp := by
  refine foldlM_inv (P := fun j => j.digestAlg = i.digestAlg ∧ j.fixityAlgs = i.fixityAlgs ∧ j.fixity = i.fixity ∧
    ∀ c, InManifest j c → InManifest i c ∨ c = mp) ?_ i j ⟨rfl, rfl, rfl, fun c h => .inl h⟩ h
  rintro b n b' - ⟨h1, h2, h3, h4⟩ hb
  obtain ⟨_, _, _, _, _, _, _, hm, hf, _, hh⟩ := addName_ok hb
  refine ⟨hh.alg.trans h1, (addName_algs hb).trans h2, hf.trans h3, fun c hc => ?_⟩
  unfold InManifest at hc
  rw [hm] at hc
  rcases inManifest_manAdd hc with h | h
  · exact h4 c h
  · exact .inr h

theorem setHeadState_mem {inv : Inv} {s : DMap} {v : Str} {ver : Version} (h : (v, ver) ∈ (setHeadState inv s).versions) :
    (v, ver) ∈ inv.versions ∨ ver.state = s := by
  unfold setHeadState at h
  split at h
  · exact .inl h
  · rcases mem_mset_sub h with e | e
    · cases e; exact .inr rfl
    · exact .inl e

/-- the steps that touch neither manifest nor fixity block -/
theorem FixSt.frame {F G A O : List Str} {D : Str} {inv inv' : Inv} (h : FixSt F G A O D inv) (h1 : inv'.digestAlg = inv.digestAlg)
    (h2 : inv'.fixityAlgs = inv.fixityAlgs) (h3 : inv'.manifest = inv.manifest) (h4 : inv'.fixity = inv.fixity)
    (h5 : inv.manifest = [] → inv.modified = false → (∀ v ver, (v, ver) ∈ inv.versions → ver.state = []) →
      inv'.modified = false ∧ ∀ v ver, (v, ver) ∈ inv'.versions → ver.state = []) : FixSt F G A O D inv' where
  alg := h1.trans h.alg
  algs := h2.trans h.algs
  covers a ha hD c hc := by
    unfold Looked
    rw [h4]
    exact h.covers a ha hD c (by unfold InManifest at hc ⊢; rw [← h3]; exact hc)
  only := by rw [h4]; exact h.only
  known := by
    rw [h3, h4]
    rcases h.known with h | ⟨k1, k2, k3⟩
    · exact .inl h
    · exact .inr ⟨k1, h5 k1 k2 k3⟩

theorem keeps_fixSt {w : World} {F G A O : List Str} {D : Str} (hF : ∀ a ∈ F, a ≠ D → a ∈ A) (hG : ∀ a ∈ G, a ≠ D → a ∈ A)
    (hO : ∀ a ∈ A, a ≠ D → a ∈ O) : StepsKeep w (FixSt F G A O D) where
  newVersion {inv inv' m u a t} h hv := by
    obtain ⟨_, _, f3, _, f5, f6, f7, f8, _⟩ := newVersion_frame hv
    refine h.frame f3 f5 f6 f7 (fun _ k2 k3 => ⟨f8.trans k2, ?_⟩)
    unfold Gocfl.newVersion at hv
    obtain ⟨nh, _, hv⟩ := res_bind_eq_ok.1 hv
    simp only at hv
    have key : ∀ (k : Str) (x : Version) (m : AMap Str Version), x.state = [] → (∀ v ver, (v, ver) ∈ m → ver.state = []) →
        ∀ v ver, (v, ver) ∈ mset m k x → ver.state = [] := by
      intro k x m hx hm v ver hv
      rcases mem_mset_sub hv with e | e
      · cases e; exact hx
      · exact hm v ver e
    split at hv
    · cases hv
      exact key _ _ _ rfl k3
    · split at hv
      · cases hv
      · rename_i last hl
        cases hv
        have hl' := key _ _ _ rfl k3 _ _ (mem_of_mget hl)
        exact key _ _ _ (by simp only [hl']; rfl) (key _ _ _ rfl k3)
  add {inv inv' ns mp data cs} h hns hc ha := by
    obtain ⟨dig, _, hf⟩ := addFile_ok ha
    obtain ⟨g1, g2, g3, g4, g5, g6⟩ := addFixity_fold_all inv mp cs
    obtain ⟨n1, n2, n3, n4⟩ := addNames_frame hf
    have hk := checksums_keys hc
    have hnew : ∀ a ∈ A, a ≠ D → Looked inv' a mp := by
      intro a haF haD
      have : a ∈ mkeys cs := by rw [hk]; exact mem_digestAlgs.2 (.inl (by rw [h.algs]; exact haF))
      obtain ⟨x, hx, rfl⟩ := List.mem_map.1 this
      have := g6 x hx (by rw [h.alg]; exact haD)
      unfold Looked
      rw [n3]
      exact this
    refine ⟨n1.trans (g1.trans h.alg), n2.trans (g3.trans h.algs), ?_, ?_, .inl ?_⟩
    · intro a haF haD c hc
      rcases n4 c hc with hc | rfl
      · have := h.covers a haF haD c (by unfold InManifest at hc ⊢; rw [← g2]; exact hc)
        have := g5 a c this
        unfold Looked
        rw [n3]
        exact this
      · exact hnew a (hF a haF haD) haD
    · rw [n3]
      intro a ha
      rcases g4 a ha with ha | ⟨ha, hn⟩
      · exact h.only a ha
      · rw [h.alg] at hn
        refine ⟨hn, ?_⟩
        rw [hk] at ha
        rcases mem_digestAlgs.1 ha with ha | ha
        · exact hO a (by rw [← h.algs]; exact ha) hn
        · rw [h.alg] at ha; exact absurd ha hn
    · intro a haF haD
      obtain ⟨mm, _, _, h1, _⟩ := hnew a (hG a haF haD) haD
      exact mem_mkeys_of_mem (mem_of_mget h1)
  copy {inv inv' p d} h hc := by
    obtain ⟨⟨m, hm⟩, s, _, ⟨_, rfl⟩ | ⟨_, rfl⟩⟩ := copyFile_ok hc
    · exact h
    · refine h.frame (setHeadState_algs _ _).2 (setHeadState_algs _ _).1 (setHeadState_manifest _ _) (setHeadState_fixity _ _) ?_
      intro k1 _ _
      rw [k1] at hm
      cases hm
  delete {inv inv' p} h hd := by
    obtain ⟨s, hs, rfl⟩ := deleteFile_ok hd
    refine h.frame (setHeadState_algs _ _).2 (setHeadState_algs _ _).1 (setHeadState_manifest _ _) (setHeadState_fixity _ _) ?_
    intro _ k2 k3
    obtain ⟨ver, hver, rfl⟩ := headState_eq_ok.1 hs
    have := k3 _ _ (mem_of_mget hver)
    rw [this]
    refine ⟨by simp [k2], fun v ver' hv' => ?_⟩
    rcases setHeadState_mem hv' with e | e
    · exact k3 v ver' e
    · exact e
  rename {inv inv' a b} h hd := by
    obtain ⟨s, hs, rfl⟩ := renameFile_ok hd
    refine h.frame (setHeadState_algs _ _).2 (setHeadState_algs _ _).1 (setHeadState_manifest _ _) (setHeadState_fixity _ _) ?_
    intro _ k2 k3
    obtain ⟨ver, hver, rfl⟩ := headState_eq_ok.1 hs
    have := k3 _ _ (mem_of_mget hver)
    rw [this]
    refine ⟨by simp [k2], fun v ver' hv' => ?_⟩
    rcases setHeadState_mem hv' with e | e
    · exact k3 v ver' e
    · exact e
  clean {inv inv'} h hc := by
    unfold Gocfl.clean at hc
    split at hc
    · cases hc; exact h
    · split at hc
      · cases hc; exact h
      · simp only at hc
        split at hc
        · cases hc
        · cases hc
          refine h.frame rfl rfl rfl rfl (fun _ k2 k3 => ⟨k2, fun v ver hv => k3 v ver ?_⟩)
          exact (List.mem_filter.1 hv).1

/-- **C121, one session** of any kind, completed or not: if every content file has its fixity values before, and the
algorithms are those of the object, so it is after it. -/
theorem C121_session {w : World} {F : List Str} {inv : Inv} (hk : FixKeys inv) (hF : ∀ a ∈ F, a ≠ inv.digestAlg → a ∈ inv.fixityAlgs)
    (ho : ∀ a ∈ mkeys inv.fixity, a ≠ inv.digestAlg) (h : FixityCovers F inv) (s : Session) :
    FixityCovers F (session w inv s).obj.inv ∧
    ∀ a ∈ mkeys (session w inv s).obj.inv.fixity, a ≠ inv.digestAlg ∧ (a ∈ mkeys inv.fixity ∨ a ∈ inv.fixityAlgs) := by
  have h0 : FixSt F [] inv.fixityAlgs (mkeys inv.fixity ++ inv.fixityAlgs) inv.digestAlg inv :=
    ⟨rfl, rfl, fun a ha hD c hc => (h a ha hD c hc).looked hk, fun a ha => ⟨ho a ha, List.mem_append_left _ ha⟩,
      .inl (fun a ha => by cases ha)⟩
  have h1 := (keeps_fixSt (w := w) hF (fun a ha => by cases ha) (fun a ha _ => List.mem_append_right _ ha)).session h0 s
  refine ⟨fun a ha hD c hc => (h1.covers a ha (by rw [← h1.alg]; exact hD) c hc).lists, fun a ha => ?_⟩
  obtain ⟨h2, h3⟩ := h1.only a ha
  exact ⟨h2, List.mem_append.1 h3⟩

/-! ## The whole life of an object -/

theorem mem_foldAlgs (ks l : List Str) (a : Str) :
    a ∈ ks.foldl (fun l a => if a ∈ l then l else l ++ [a]) l ↔ a ∈ l ∨ a ∈ ks := by
  induction ks generalizing l with
  | nil => simp
  | cons k ks ih =>
    rw [List.foldl_cons, ih]
    split
    · rename_i hk
      constructor
      · rintro (h | h)
        · exact .inl h
        · exact .inr (List.mem_cons_of_mem _ h)
      · rintro (h | h)
        · exact .inl h
        · rcases List.mem_cons.1 h with rfl | h
          · exact .inl hk
          · exact .inr h
    · simp only [List.mem_append, List.mem_cons, List.not_mem_nil, or_false]
      tauto

/-- the document holds no list of algorithms: reading it leaves the list empty
(pkg/ocfl/inventorybase.go:86, no JSON field) -/
def NoAlgList (w : World) : Prop := ∀ b r, w.dec b = some r → r.inv.fixityAlgs = []

/-- what is known between two sessions -/
structure FixLife (a : CreateArgs) (N : Nat) (inv : Inv) : Prop where
  covers : ∀ x ∈ a.fixity, x ≠ a.alg → ∀ c, InManifest inv c → FixityLists inv x c
  known : ∀ x ∈ a.fixity, x ≠ a.alg → x ∈ inv.fixityAlgs
  only : ∀ x ∈ mkeys inv.fixity, x ≠ a.alg
  keys : 0 < N → ∀ x ∈ a.fixity, x ≠ a.alg → x ∈ mkeys inv.fixity
  start : N = 0 → inv.manifest = [] ∧ inv.modified = false ∧ inv.versions = []

theorem life_fix {w : World} (hc : Codec w) (hx : HexHash w) (hL : LowerHash w)
    (ht : ∀ t, w.time (w.time t) = w.time t) {env : Env} {a : CreateArgs} {id : Str} (hg : GoodArgs a id) {fs : FS} {N : Nat}
    {inv : Inv} (h : Life w env a id fs N inv) :
    FixLife a N inv ∧ (NoAlgList w → ∀ x ∈ inv.fixityAlgs, x ∈ a.fixity) ∧ (NoAlgList w → ∀ x ∈ mkeys inv.fixity, x ∈ a.fixity) := by
  induction h with
  | new inv hi =>
    obtain ⟨h1, rfl⟩ := intact_new (w := w) hg hi
    refine ⟨⟨?_, fun x hx _ => hx, fun x hx => (by cases hx), fun h => (by omega), fun _ => ⟨rfl, rfl, rfl⟩⟩, fun _ x hx => hx,
      fun _ x hx => (by cases hx)⟩
    rintro x _ _ c ⟨d, m, hm, _⟩
    cases hm
  | session fs N inv inv' s f hl0 hs hl ih =>
    have A := life_alive hc hx hL ht hg hl0
    obtain ⟨F, ihA, ihK⟩ := ih
    obtain ⟨r, hdec, R, hV, hI⟩ := C80_session_valid hc hx hL ht A.intact hs
    obtain ⟨f', hl'⟩ := load_valid_any env hV.stored hV.decoded hV.inv
    rw [hl] at hl'
    cases hl'
    have h0 : FixSt a.fixity a.fixity inv.fixityAlgs (mkeys inv.fixity ++ inv.fixityAlgs) a.alg inv := by
      refine ⟨A.alg, rfl, fun x hx hD c hc => (F.covers x hx hD c hc).looked A.intact.ok.keys,
        fun x hx => ⟨F.only x hx, List.mem_append_left _ hx⟩, ?_⟩
      by_cases hN : 0 < N
      · exact .inl (F.keys hN)
      · obtain ⟨k1, k2, k3⟩ := F.start (by omega)
        exact .inr ⟨k1, k2, fun v ver hv => by rw [k3] at hv; cases hv⟩
    have h1 := (keeps_fixSt (w := w) F.known F.known (fun x hx _ => List.mem_append_right _ hx)).session h0 s
    have hkeys : ∀ x ∈ a.fixity, x ≠ a.alg → x ∈ mkeys (session w inv s).obj.inv.fixity := by
      rcases h1.known with h | ⟨_, h, _⟩
      · exact h
      · rw [hs.modified] at h; cases h
    have hk' : ∀ x, x ∈ mkeys (loadedInv 0 r).fixity ↔ x ∈ mkeys (session w inv s).obj.inv.fixity :=
      fun x => (R.fixityKeys.mem_iff).symm
    have hal : ∀ x, x ∈ (loadedInv 0 r).fixityAlgs ↔ x ∈ r.inv.fixityAlgs ∨ x ∈ mkeys (session w inv s).obj.inv.fixity := by
      intro x
      show x ∈ addFixityAlgs r.inv ↔ _
      unfold addFixityAlgs
      rw [mem_foldAlgs]
      exact or_congr Iff.rfl (hk' x)
    refine ⟨⟨?_, fun x hx hD => (hal x).2 (.inr (hkeys x hx hD)), fun x hx => (h1.only x ((hk' x).1 hx)).1,
      fun _ x hx hD => (hk' x).2 (hkeys x hx hD), fun h => by omega⟩, ?_, ?_⟩
    · rintro x hxF hD c ⟨d, m, hm, hc⟩
      obtain ⟨mm, d', m', e1, e2, e3⟩ := (h1.covers x hxF hD c ⟨d, m, R.manifest.mem_iff.2 hm, hc⟩).lists
      obtain ⟨mm', e4, e5⟩ := R.fixity x mm e1
      exact ⟨mm', d', m', e4, e5.mem_iff.1 e2, e3⟩
    · intro hn x hx
      rcases (hal x).1 hx with h | h
      · rw [hn _ _ hdec] at h; cases h
      · rcases List.mem_append.1 (h1.only x h).2 with h | h
        · exact ihK hn x h
        · exact ihA hn x h
    · intro hn x hx
      rcases List.mem_append.1 (h1.only x ((hk' x).1 hx)).2 with h | h
      · exact ihK hn x h
      · exact ihA hn x h

/-- **C121.** Take an object created with the further algorithms `a.fixity`, changed by any number of sessions, each on
the object loaded anew.  Every content file is recorded under each of these algorithms (other than the digest algorithm,
whose value is in the manifest), with the digest of the bytes on disk. -/
theorem C121_fixity_recorded {w : World} (hc : Codec w) (hx : HexHash w) (hL : LowerHash w)
    (ht : ∀ t, w.time (w.time t) = w.time t) {env : Env} {a : CreateArgs} {id : Str} (hg : GoodArgs a id) {fs : FS} {N : Nat}
    {inv : Inv} (h : Life w env a id fs N inv) {alg c d : Str} {m : List Str} (ha : alg ∈ a.fixity) (hne : alg ≠ a.alg)
    (hm : (d, m) ∈ inv.manifest) (hcm : c ∈ m) :
    ∃ mm fd ps b hash, (alg, mm) ∈ inv.fixity ∧ (fd, ps) ∈ mm ∧ c ∈ ps ∧ mget fs c = some b ∧ w.hash alg = some hash ∧
      fd = hash b := by
  have A := life_alive hc hx hL ht hg h
  obtain ⟨mm, fd, ps, h1, h2, h3⟩ := (life_fix hc hx hL ht hg h).1.covers alg ha hne c ⟨d, m, hm, hcm⟩
  obtain ⟨_, b, hash, h4, h5, h6⟩ := A.intact.files.fixity alg mm fd ps c h1 h2 h3
  refine ⟨mm, fd, ps, b, hash, h1, h2, h3, h4, h5, ?_⟩
  rw [h6, A.intact.ok.lower alg mm fd h1 (mem_mkeys_of_mem h2)]

/-- **C121.** And the fixity block holds no other algorithm, and nothing but content files of the manifest. -/
theorem C121_nothing_else {w : World} (hc : Codec w) (hx : HexHash w) (hL : LowerHash w)
    (ht : ∀ t, w.time (w.time t) = w.time t) (hn : NoAlgList w) {env : Env} {a : CreateArgs} {id : Str} (hg : GoodArgs a id)
    {fs : FS} {N : Nat} {inv : Inv} (h : Life w env a id fs N inv) :
    (∀ alg ∈ mkeys inv.fixity, alg ∈ a.fixity ∧ alg ≠ a.alg) ∧
    (∀ alg mm fd ps c, (alg, mm) ∈ inv.fixity → (fd, ps) ∈ mm → c ∈ ps → InManifest inv c) := by
  have A := life_alive hc hx hL ht hg h
  obtain ⟨F, _, hK⟩ := life_fix hc hx hL ht hg h
  exact ⟨fun x hx => ⟨hK hn x hx, F.only x hx⟩, fun x mm fd ps c h1 h2 h3 => (A.intact.files.fixity x mm fd ps c h1 h2 h3).1⟩

/-! ## A concrete life: SHA-512 with fixity MD5, two sessions -/

/-- a world with a second algorithm; reading an inventory forgets the list of algorithms -/
noncomputable def fixWorld : World :=
  { exKeep with
    hash := fun a => if a = "sha512".toList ∨ a = "md5".toList then some (fun b => 'a' :: List.replicate b.length '0') else none
    dec := fun b => (exDec (fun t => t) b).map (fun r => { r with inv := { r.inv with fixityAlgs := [] } }) }

def fixArgs : CreateArgs := { exArgs with fixity := ["md5".toList, "sha512".toList], allowed := ["md5".toList, "sha256".toList, "sha512".toList] }

theorem fixWorld_hash {a : Str} {h : Bytes → Str} (hh : fixWorld.hash a = some h) :
    h = fun b => 'a' :: List.replicate b.length '0' := by
  have hh : (if a = "sha512".toList ∨ a = "md5".toList then some (fun b : Bytes => 'a' :: List.replicate b.length '0') else none) =
      some h := hh
  split at hh
  · cases hh; rfl
  · cases hh

theorem fixWorld_codec : Codec fixWorld where
  roundTrip inv _ _ _ := by
    refine ⟨{ rawOf (stampInv (fun t => t) inv) with inv := { (rawOf (stampInv (fun t => t) inv)).inv with fixityAlgs := [] } }, ?_, ?_⟩
    · show (exDec (fun t => t) (exEnc inv)).map _ = some _
      rw [exDec_enc]; rfl
    · exact ⟨rfl, rfl, rfl, rfl, rfl, rfl, rfl, rfl, rfl, fun _ => rfl, List.Perm.refl _, List.Perm.refl _,
        fun _ v h => ⟨v, h, rfl, rfl, rfl, rfl, List.Perm.refl _⟩, fun _ v h => ⟨v, h, rfl, rfl, rfl, rfl, List.Perm.refl _⟩,
        fun _ m h => ⟨m, h, List.Perm.refl _⟩, fun _ m h => ⟨m, h, List.Perm.refl _⟩, List.Perm.refl _⟩
  empty := by
    show (exDec (fun t => t) []).map _ = none
    rw [show exDec (fun t => t) [] = none from (codecWorld_codec _).empty]
    rfl

theorem fixWorld_hex : HexHash fixWorld := by
  intro a h b hh
  rw [fixWorld_hash hh]
  refine ⟨by simp, fun c hc => ?_⟩
  rcases List.mem_cons.1 hc with rfl | hc
  · decide
  · rw [(List.mem_replicate.1 hc).2]; decide

theorem fixWorld_lower : LowerHash fixWorld := by
  intro a h b hh
  rw [fixWorld_hash hh]
  simp only
  unfold toLower
  rw [List.map_cons, List.map_replicate]
  rfl

theorem fixWorld_noAlgs : NoAlgList fixWorld := by
  intro b r h
  obtain ⟨r', _, rfl⟩ := Option.map_eq_some_iff.1 h
  rfl

theorem fixArgs_good : GoodArgs fixArgs "a".toList :=
  ⟨by decide, exVersion, by decide, ⟨by decide, by decide, by decide⟩, Or.inl rfl⟩

def fixInv0 : Inv := newInv "a".toList fixArgs.spec fixArgs.alg fixArgs.contentDir fixArgs.fixity

noncomputable def fixNext (inv : Inv) (s : Session) : Inv :=
  loadedInv 0 { rawOf (stampInv (fun t => t) (session fixWorld inv s).obj.inv) with
    inv := { (rawOf (stampInv (fun t => t) (session fixWorld inv s).obj.inv)).inv with fixityAlgs := [] } }

theorem fix_next {env : Env} {fs : FS} {N : Nat} {inv : Inv} {s : Session}
    (h : Life fixWorld env fixArgs "a".toList fs N inv) (hs : CleanSession fixWorld 0 N inv s) :
    Life fixWorld env fixArgs "a".toList (applyOps fs (session fixWorld inv s).obj.trace) (N + 1) (fixNext inv s) := by
  have A := life_alive fixWorld_codec fixWorld_hex fixWorld_lower (fun _ => rfl) fixArgs_good h
  obtain ⟨r, hd, _, hV, _⟩ := C80_session_valid fixWorld_codec fixWorld_hex fixWorld_lower (fun _ => rfl) A.intact hs
  have h1 : fixWorld.dec (fixWorld.enc (session fixWorld inv s).obj.inv) =
      some { rawOf (stampInv (fun t => t) (session fixWorld inv s).obj.inv) with
        inv := { (rawOf (stampInv (fun t => t) (session fixWorld inv s).obj.inv)).inv with fixityAlgs := [] } } := by
    show (exDec (fun t => t) (exEnc (session fixWorld inv s).obj.inv)).map _ = some _
    rw [exDec_enc]; rfl
  rw [h1] at hd
  cases hd
  obtain ⟨f, hf⟩ := load_valid_any env hV.stored hV.decoded hV.inv
  exact .session fs N inv _ s f h hs hf

theorem fixFirst_clean : CleanSession fixWorld 0 0 fixInv0 (exSession "c/d".toList) where
  names := exNames
  rounds := rfl
  distinct := by decide
  completes := by decide
  modified := by decide
  paths := headPaths_of (p := 0) (N := 1) (validInv_of (by decide))
  width := by decide

noncomputable abbrev fixInv1 : Inv := fixNext fixInv0 (exSession "c/d".toList)

theorem fixSecond_clean : CleanSession fixWorld 0 1 fixInv1 exSecond where
  names := by
    intro x hx i hi
    have : x = ("e".toList, []) := by simpa [Session.uses, exSecond, exSession, callsUses, Call.uses] using hx
    subst this
    cases hi
    exact ⟨0, by decide⟩
  rounds := rfl
  distinct := by decide
  completes := by decide
  modified := by decide
  paths := headPaths_of (p := 0) (N := 2) (validInv_of (by decide))
  width := by decide

/-- two content files, both with their MD5, computed in two sessions -/
example (env : Env) : ∃ fs, Life fixWorld env fixArgs "a".toList fs 2 (fixNext fixInv1 exSecond) ∧
    (fixNext fixInv1 exSecond).manifest =
      [("a0".toList, ["v1/content/c/d".toList]), ("a00".toList, ["v2/content/e".toList])] ∧
    (fixNext fixInv1 exSecond).fixity =
      [("md5".toList, [("a0".toList, ["v1/content/c/d".toList]), ("a00".toList, ["v2/content/e".toList])])] :=
  ⟨_, fix_next (fix_next (.new fixInv0 rfl) fixFirst_clean) fixSecond_clean, by decide, by decide⟩

end Gocfl
