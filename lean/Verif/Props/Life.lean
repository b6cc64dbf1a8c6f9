import Verif.Props.OwnValid
import Verif.Props.Root

/-! # The life of an object: created, changed, validated (C80) -/

namespace Gocfl

/-- A valid inventory can be loaded. -/
theorem load_valid_any {w : World} {fs : FS} {p n : Nat} {r : RawInv} (env : Env) (S : StoredInv w fs r) (D : Decoded r)
    (V : ValidInv p n r.inv) : ∃ f, loadRoot w env fs = .ok (loadedInv p r, f) := by
  obtain ⟨b, sb, hash, hb, hr, hh, hs, ht⟩ := S
  have hnil : ∀ {c : Str}, SafePath c → c ≠ [] := fun h => safePath_ne_nil h
  obtain ⟨⟨x, f⟩, hx⟩ := C40_no_crash_partial env r D.head.1
    (fun v ver hv => ⟨(D.versions v ver hv).1, (D.versions v ver hv).2.1, (D.versions v ver hv).2.2.2.2.2.2.2.1⟩)
    (fun v ver d ps hv hd hn => hnil (V.paths.1 v ver d ps [] hv hd hn) rfl)
    (fun d ps hd hn => hnil (V.paths.2.1 d ps [] hd hn) rfl)
    (fun a m d ps ha hd hn => hnil (V.paths.2.2 a m d ps [] ha hd hn) rfl)
  have hne : mkeys r.inv.versions ≠ [] := by
    intro h
    have := (V.mem_keys r.inv.head).2 ⟨n, V.some, le_refl _, V.head⟩
    rw [h] at this; simp at this
  obtain ⟨_, _, _, _, _, hxe⟩ := finalize_ok hx
  rw [computedPadding_uniform V.uniform, if_neg hne] at hxe
  subst hxe
  refine ⟨f ++ [], ?_⟩
  unfold loadRoot
  simp only [hb, hr, hx]
  have : sidecarFnd w fs (rootSidecarPath r.inv.digestAlg) r.inv.digestAlg b = .ok [] := by
    unfold sidecarFnd
    simp only [hs, sidecarMatch_iff.2 ht, hh, if_true]
  rw [show (Except.ok (({ r.inv with fixityAlgs := addFixityAlgs r.inv, paddingLength := (p : Int) } : Inv), f) : Res (Inv × List Fnd)) =
    pure _ from rfl, pure_bind, this]
  rfl

/-- The object in memory and its folder: created by `Init` with the arguments `a`, then changed by sessions, each
starting with the object loaded anew. -/
inductive Life (w : World) (env : Env) (a : CreateArgs) (id : Str) : FS → Nat → Inv → Prop
  | new (inv : Inv) : (initObject a [] id).2 = .ok inv → Life w env a id (applyOps [] (initObject a [] id).1) 0 inv
  | session (fs : FS) (N : Nat) (inv inv' : Inv) (s : Session) (f : List Fnd) : Life w env a id fs N inv →
      CleanSession w 0 N inv s → loadRoot w env (applyOps fs (session w inv s).obj.trace) = .ok (inv', f) →
      Life w env a id (applyOps fs (session w inv s).obj.trace) (N + 1) inv'

/-- What an object may be created with. -/
structure GoodArgs (a : CreateArgs) (id : Str) : Prop where
  id : id ≠ []
  version : IsVersionNum a.version
  spec : a.spec ≠ []
  contentDir : a.contentDir ≠ ".".toList ∧ a.contentDir ≠ "..".toList ∧ '/' ∉ a.contentDir
  alg : a.alg = "sha512".toList ∨ a.alg = "sha256".toList

theorem intact_new {w : World} {a : CreateArgs} {id : Str} {inv : Inv} (h : GoodArgs a id)
    (hi : (initObject a [] id).2 = .ok inv) :
    Intact w (applyOps [] (initObject a [] id).1) 0 0 inv ∧ inv = newInv id a.spec a.alg a.contentDir a.fixity := by
  have hE : (initObject a [] id).1 = writeFile (declName a.version) (asBytes (objDecl ++ a.version ++ "\n".toList)) := by
    unfold initObject; simp [mget]
  have hI : inv = newInv id a.spec a.alg a.contentDir a.fixity := by
    unfold initObject at hi
    simp only [mget, ne_eq, not_true_eq_false, if_false] at hi
    split at hi
    · cases hi; rfl
    · cases hi
  have hfs : applyOps [] (initObject a [] id).1 = [(declName a.version, asBytes (objDecl ++ a.version ++ "\n".toList))] := by
    rw [hE]
    simp [writeFile, applyOps, FsOp.apply, mset, mget]
  rw [hfs, hI]
  refine ⟨?_, rfl⟩
  have hget : ∀ x b, mget [(declName a.version, asBytes (objDecl ++ a.version ++ "\n".toList))] x = some b →
      x = declName a.version := by
    intro x b hx
    have := mem_of_mget hx
    cases List.mem_singleton.1 this
    rfl
  have hns := declName_slash h.version
  refine ⟨⟨?_, rfl, ⟨by simp [newInv, mkeys], by simp [newInv, mkeys], fun a m hm => by cases hm⟩, h.id, h.spec, h.contentDir,
    h.alg, ?_, ?_, ?_, ?_, ?_, ?_, ?_⟩, ⟨?_, ?_, ?_, ?_⟩, by simp [mkeys], ⟨a.version, h.version, by simp [mget], ?_⟩, ?_, ?_, ?_, ?_,
    ?_, ?_, ?_⟩
  · exact newInv_wf _ _ _ _ _
  · intro d m hm; cases hm
  · exact ⟨fun _ _ _ hv => (by cases hv), fun _ _ hv => (by cases hv)⟩
  · intro a mm d m hm; cases hm
  · intro a mm d hm; cases hm
  · refine ⟨?_, ?_, ?_⟩
    · intro v ver d ps q hv; cases hv
    · intro d ps q hv; cases hv
    · intro v ver d ps q hv; cases hv
  · rintro ⟨v, ver, q1, q2, hv, _⟩; cases hv
  · intro d m c hm; cases hm
  · intro d m c hm; cases hm
  · intro v ver q b hv; cases hv
  · intro a mm d m c hm; cases hm
  · intro a ha; cases ha
  · intro n b hn _; exact Or.inl (hget n b hn)
  · intro d q b hb _
    exact absurd (by rw [← hget _ _ hb]; simp) hns
  · intro v ver hv; cases hv
  · intro v ver x b hv; cases hv
  · intro n b h0 h1; omega
  · intro n m bn bm i j h0 h1 h2; omega
  · intro n b i h0 h1; omega
  · intro v ver hv; cases hv

/-- What holds all along the life of an object. -/
structure Alive (w : World) (a : CreateArgs) (id : Str) (fs : FS) (N : Nat) (inv : Inv) : Prop where
  intact : Intact w fs 0 N inv
  alg : inv.digestAlg = a.alg
  contentDirectory : inv.contentDirectory = a.contentDir
  id : inv.id = id
  spec : inv.spec = a.spec
  inventories : ∀ n : Nat, 0 < n → n ≤ N → mget fs (verInvPath (verName 0 (n : Int))) ≠ none
  valid : 0 < N → ∃ r, ValidObject w fs 0 N r ∧ inv = loadedInv 0 r

theorem life_alive {w : World} (hc : Codec w) (hx : HexHash w) (hL : LowerHash w)
    (ht : ∀ t, w.time (w.time t) = w.time t) {env : Env} {a : CreateArgs} {id : Str} (hg : GoodArgs a id) {fs : FS} {N : Nat}
    {inv : Inv} (h : Life w env a id fs N inv) : Alive w a id fs N inv := by
  induction h with
  | new inv hi =>
    obtain ⟨h1, rfl⟩ := intact_new hg hi
    exact ⟨h1, rfl, rfl, rfl, rfl, fun n h0 h1 => by omega, fun h => by omega⟩
  | session fs N inv inv' s f _ hs hl ih =>
    obtain ⟨r, hdec, R, hV, hI⟩ := C80_session_valid hc hx hL ht ih.intact hs
    obtain ⟨f', hl'⟩ := load_valid_any env hV.stored hV.decoded hV.inv
    rw [hl] at hl'
    cases hl'
    obtain ⟨i, o, g, D⟩ := deposited hL ih.intact.ok hs.names hs.rounds hs.completes hs.modified
    obtain ⟨s1, s2, s3, s4, s5, s6, s7, s8⟩ := D.scalars ih.intact.ok
    obtain ⟨e1, e2, e3, e4, e5⟩ := R.scalars
    rw [D.result] at e1 e2 e3 e4 e5
    refine ⟨hI, (e3.symm.trans s2).trans ih.alg, (e5.symm.trans s3).trans ih.contentDirectory, (e1.symm.trans s4).trans ih.id,
      (e2.symm.trans s5).trans ih.spec, ?_, fun _ => ⟨r, hV, rfl⟩⟩
    intro n h0 hn
    by_cases hle : n ≤ N
    · have := mget_applyOps_ne (fs := fs) (t := (session w inv s).obj.trace) (p := verInvPath (verName 0 (n : Int))) (by
        intro op hop hc
        exact session_not_old ih.intact.ok.wf ih.intact.ok.cdir hs.names hop
          (by rw [hc, verInv_eq]; exact ⟨n, h0, hle, _, by rw [ih.intact.ok.pad]; rfl⟩))
      rw [this]
      exact ih.inventories n h0 hle
    · have : n = N + 1 := by omega
      subst this
      obtain ⟨b, hb, _⟩ := hV.last
      rw [hV.inv.head] at hb
      intro hc
      have hc : mget (applyOps fs (session w inv s).obj.trace) (verInvPath (verName ((0 : Nat) : Int) ((N + 1 : Nat) : Int))) = none := hc
      rw [hb] at hc
      cases hc

/-- **C80.** An object that was created and then changed by sessions is a valid object. -/
theorem C80_life_valid {w : World} (hc : Codec w) (hx : HexHash w) (hL : LowerHash w)
    (ht : ∀ t, w.time (w.time t) = w.time t) {env : Env} {a : CreateArgs} {id : Str} (hg : GoodArgs a id) {fs : FS} {N : Nat}
    {inv : Inv} (h : Life w env a id fs N inv) (hN : 0 < N) :
    ∃ r, ValidObject w fs 0 N r ∧ inv = loadedInv 0 r ∧ inv.id = id ∧ inv.digestAlg = a.alg ∧
      inv.contentDirectory = a.contentDir :=
  have A := life_alive hc hx hL ht hg h
  have ⟨r, h1, h2⟩ := A.valid hN
  ⟨r, h1, h2, A.id, A.alg, A.contentDirectory⟩

/-- every version brought new content -/
def EveryVersionAdds (inv : Inv) : Prop := ∀ v ver, (v, ver) ∈ inv.versions →
  ∃ d m q, (d, m) ∈ inv.manifest ∧ v ++ '/' :: inv.contentDir ++ '/' :: q ∈ m

/-- the content directory is not the beginning of the name of the inventory or its sidecar -/
def GoodName (contentDir : Str) : Prop :=
  ¬ (if contentDir = [] then "content".toList else contentDir) <+: "inventory.json.sha512".toList

/-- **C80, the part that holds**: validation of an object the tool created and changed finds no error, if the object has
SHA-512, a content directory whose name is no beginning of `inventory.json.sha512` and, on local disks, every version
brought new content. -/
theorem C80_life_accepted_partial {w : World} (hc : Codec w) (hx : HexHash w) (hL : LowerHash w)
    (ht : ∀ t, w.time (w.time t) = w.time t) {env : Env} {a : CreateArgs} {id : Str} (hg : GoodArgs a id) {fs : FS} {N : Nat}
    {inv : Inv} (h : Life w env a id fs N inv) (hN : 0 < N) {plain : Bool} {blank : Inv} {root : FS} {folder : Str}
    (hf : subFS root folder = fs) (ha : a.alg = "sha512".toList) (hn : GoodName a.contentDir)
    (hv : plain = false → EveryVersionAdds inv) :
    ∃ F, checkFolder w env plain blank root folder = .ok F ∧ NoErrors F := by
  have A := life_alive hc hx hL ht hg h
  obtain ⟨r, hV, rfl⟩ := A.valid hN
  subst hf
  refine C79_valid_accepted_partial env hL hV ⟨A.alg.trans ha, A.inventories, ?_, ?_⟩
  · intro hp n h0 hn
    obtain ⟨ver, hver⟩ : ∃ ver, (verName ((0 : Nat) : Int) (n : Int), ver) ∈ r.inv.versions := by
      obtain ⟨⟨v', ver⟩, hv', he⟩ := List.mem_map.1 ((hV.inv.mem_keys _).2 ⟨n, h0, hn, rfl⟩)
      exact ⟨ver, by rw [← he]; exact hv'⟩
    obtain ⟨d, m, q, h1, h2⟩ := hv hp _ ver hver
    obtain ⟨b, _, hb, _⟩ := hV.files.content d m _ h1 h2
    exact ⟨q, b, hb⟩
  · have : r.inv.contentDirectory = a.contentDir := A.contentDirectory
    unfold Inv.contentDir
    rw [this]
    exact hn

/-- **C80, exactly when it holds on local disks.** -/
theorem C80_life_accepted_iff {w : World} (hc : Codec w) (hx : HexHash w) (hL : LowerHash w)
    (ht : ∀ t, w.time (w.time t) = w.time t) {env : Env} {a : CreateArgs} {id : Str} (hg : GoodArgs a id) {fs : FS} {N : Nat}
    {inv : Inv} (h : Life w env a id fs N inv) (hN : 0 < N) {blank : Inv} {root : FS} {folder : Str}
    (hf : subFS root folder = fs) :
    (∃ F, checkFolder w env false blank root folder = .ok F ∧ NoErrors F) ↔
      a.alg = "sha512".toList ∧ GoodName a.contentDir ∧ EveryVersionAdds inv := by
  refine ⟨fun hF => ?_, fun ⟨h1, h2, h3⟩ => C80_life_accepted_partial hc hx hL ht hg h hN hf h1 h2 (fun _ => h3)⟩
  have A := life_alive hc hx hL ht hg h
  obtain ⟨r, hV, rfl⟩ := A.valid hN
  subst hf
  have U := (C79_accepted_iff env hL hV).1 hF
  refine ⟨A.alg.symm.trans U.alg, ?_, ?_⟩
  · have : r.inv.contentDirectory = a.contentDir := A.contentDirectory
    have h1 := U.name
    unfold Inv.contentDir at h1
    rw [this] at h1
    exact h1
  · intro v ver hv
    obtain ⟨n, h0, hn, rfl⟩ := (hV.inv.mem_keys v).1 (mem_mkeys_of_mem hv)
    obtain ⟨q, b, hb⟩ := U.content rfl n h0 hn
    obtain ⟨d, m, h1, h2⟩ := hV.files.complete _ ver q b hv hb
    exact ⟨d, m, q, h1, h2⟩

/-! ## Two concrete lives -/

theorem headPaths_of {p N : Nat} {inv : Inv} (V : ValidInv p N inv) : HeadPathsOk inv where
  safe := fun ver d ps q hv hd hq => V.paths.1 _ ver d ps q hv hd hq
  noConflict := fun ver x y hv hx hy hu => V.noConflict ⟨_, ver, x, y, hv, hx, hy, hu⟩

theorem exKeep_lower : LowerHash exKeep := by
  intro a h b hh
  have hh : (if a = "sha512".toList then some (fun b : Bytes => 'a' :: List.replicate b.length '0') else none) =
      some h := hh
  split at hh
  · cases hh
    unfold toLower
    rw [List.map_cons, List.map_replicate]
    rfl
  · cases hh

/-- created, not yet changed -/
def lifeInv0 : Inv := newInv "a".toList exArgs.spec exArgs.alg exArgs.contentDir exArgs.fixity

/-- after the session `s`, loaded again -/
noncomputable def nextInv (inv : Inv) (s : Session) : Inv := loadedInv 0 (rawOf (stampInv (fun t => t) (session exKeep inv s).obj.inv))

/-- the second session: a file is renamed -/
def exRename : Session := { exSession [] with body := [.rename "c/d".toList "e".toList "a0".toList] }

/-- or: another file is added -/
def exSecond : Session := { exSession [] with body := [.add "e".toList [] [7, 7] true] }

theorem exArgs_good : GoodArgs exArgs "a".toList :=
  ⟨by decide, exVersion, by decide, ⟨by decide, by decide, by decide⟩, Or.inl rfl⟩

theorem life_start (env : Env) :
    Life exKeep env exArgs "a".toList (applyOps [] (initObject exArgs [] "a".toList).1) 0 lifeInv0 :=
  .new lifeInv0 rfl

theorem life_next {env : Env} {fs : FS} {N : Nat} {inv : Inv} {s : Session}
    (h : Life exKeep env exArgs "a".toList fs N inv) (hs : CleanSession exKeep 0 N inv s) :
    Life exKeep env exArgs "a".toList (applyOps fs (session exKeep inv s).obj.trace) (N + 1) (nextInv inv s) := by
  have A := life_alive (codecWorld_codec _) (codecWorld_hex _) exKeep_lower (fun _ => rfl) exArgs_good h
  obtain ⟨r, hd, _, hV, _⟩ := C80_session_valid (codecWorld_codec _) (codecWorld_hex _) exKeep_lower (fun _ => rfl) A.intact hs
  have h1 : exKeep.dec (exKeep.enc (session exKeep inv s).obj.inv) = some (rawOf (stampInv (fun t => t) (session exKeep inv s).obj.inv)) :=
    exDec_enc _ _
  have hd : exKeep.dec (exKeep.enc (session exKeep inv s).obj.inv) = some r := hd
  rw [h1] at hd
  cases hd
  obtain ⟨f, hf⟩ := load_valid_any env hV.stored hV.decoded hV.inv
  exact .session fs N inv _ s f h hs hf

theorem exFirst_clean : CleanSession exKeep 0 0 lifeInv0 (exSession "c/d".toList) where
  names := exNames
  rounds := rfl
  distinct := by decide
  completes := by decide
  modified := by decide
  paths := headPaths_of (p := 0) (N := 1) (validInv_of (by decide))
  width := by decide

noncomputable abbrev lifeInv1 : Inv := nextInv lifeInv0 (exSession "c/d".toList)

theorem exRename_clean : CleanSession exKeep 0 1 lifeInv1 exRename where
  names := by
    intro x hx
    simp [Session.uses, exRename, exSession, callsUses, Call.uses] at hx
  rounds := rfl
  distinct := by decide
  completes := by decide
  modified := by decide
  paths := headPaths_of (p := 0) (N := 2) (validInv_of (by decide))
  width := by decide

theorem exSecond_clean : CleanSession exKeep 0 1 lifeInv1 exSecond where
  names := by
    intro x hx i hi
    have : x = ("e".toList, []) := by simpa [Session.uses, exSecond, exSession, callsUses, Call.uses] using hx
    subst this
    cases hi
    exact ⟨0, by decide⟩
  rounds := rfl
  distinct := by decide
  completes := by decide
  modified := by decide
  paths := headPaths_of (p := 0) (N := 2) (validInv_of (by decide))
  width := by decide

/-! ## In a storage root -/

theorem subFS_cons (e : Str × Bytes) (fs : FS) (f : Str) : subFS (e :: fs) f =
    match stripFolder f e.1 with
    | none => subFS fs f
    | some r => (r, e.2) :: subFS fs f := by
  unfold subFS
  rw [List.filterMap_cons]
  cases stripFolder f e.1 <;> rfl

theorem stripFolder_under (f p : Str) : stripFolder f (under f p) = some p := stripFolder_eq_some.2 rfl

theorem subFS_mset (fs : FS) (f p : Str) (b : Bytes) : subFS (mset fs (under f p) b) f = mset (subFS fs f) p b := by
  induction fs with
  | nil => simp only [mset, subFS_cons, stripFolder_under]; rfl
  | cons e fs ih =>
    obtain ⟨k, v⟩ := e
    by_cases hk : k = under f p
    · subst hk
      simp only [mset, subFS_cons, stripFolder_under, if_true]
    · have h1 : mset ((k, v) :: fs) (under f p) b = (k, v) :: mset fs (under f p) b := by simp only [mset, if_neg hk]
      rw [h1]
      simp only [subFS_cons, ih]
      cases hs : stripFolder f k with
      | none => rfl
      | some r =>
        have : r ≠ p := by
          rintro rfl
          exact hk (stripFolder_eq_some.1 hs)
        simp only [mset, if_neg this]

theorem subFS_mset_other (fs : FS) {f x : Str} (b : Bytes) (h : stripFolder f x = none) : subFS (mset fs x b) f = subFS fs f := by
  induction fs with
  | nil => simp only [mset, subFS_cons, h]
  | cons e fs ih =>
    obtain ⟨k, v⟩ := e
    by_cases hk : k = x
    · subst hk
      simp only [mset, subFS_cons, h, if_true]
    · have h1 : mset ((k, v) :: fs) x b = (k, v) :: mset fs x b := by simp only [mset, if_neg hk]
      rw [h1]
      simp only [subFS_cons, ih]

/-- What is done in a folder of the storage root is done to the object. -/
theorem subFS_applyOps_lift (t : List FsOp) (fs : FS) (f : Str) :
    subFS (applyOps fs (t.map (FsOp.lift f))) f = applyOps (subFS fs f) t := by
  induction t generalizing fs with
  | nil => rfl
  | cons op t ih =>
    show subFS (applyOps (FsOp.apply fs (FsOp.lift f op)) (t.map (FsOp.lift f))) f = applyOps (FsOp.apply (subFS fs f) op) t
    rw [ih]
    congr 1
    cases op with
    | create p => exact subFS_mset _ _ _ _
    | append p b =>
      show subFS (mset fs (under f p) ((mget fs (under f p)).getD [] ++ b)) f = mset (subFS fs f) p ((mget (subFS fs f) p).getD [] ++ b)
      rw [subFS_mset, mget_subFS]

/-- What is done elsewhere does not affect it. -/
theorem subFS_applyOps_other (t : List FsOp) (fs : FS) (f : Str) (h : ∀ op ∈ t, stripFolder f op.path = none) :
    subFS (applyOps fs t) f = subFS fs f := by
  induction t generalizing fs with
  | nil => rfl
  | cons op t ih =>
    show subFS (applyOps (FsOp.apply fs op) t) f = subFS fs f
    rw [ih _ (fun o ho => h o (List.mem_cons_of_mem _ ho))]
    have := h op (by simp)
    cases op with
    | create p => exact subFS_mset_other _ _ this
    | append p b => exact subFS_mset_other _ _ this

/-- **C80, in full**: whatever the tool created and changed validates without error. -/
def C80_full : Prop := ∀ (w : World) (env : Env) (plain : Bool) (blank : Inv) (a : CreateArgs) (id : Str) (fs : FS) (N : Nat)
  (inv : Inv) (root : FS) (folder : Str), Codec w → HexHash w → LowerHash w → (∀ t, w.time (w.time t) = w.time t) →
  GoodArgs a id → a.alg = "sha512".toList → Life w env a id fs N inv → 0 < N → subFS root folder = fs →
  ∃ F, checkFolder w env plain blank root folder = .ok F ∧ NoErrors F

/-- The storage root of the example: an object in folder `o`. -/
noncomputable def lifeRoot (s : Session) : FS :=
  applyOps [] ((((initObject exArgs [] "a".toList).1 ++ (session exKeep lifeInv0 (exSession "c/d".toList)).obj.trace) ++
    (session exKeep lifeInv1 s).obj.trace).map (FsOp.lift "o".toList))

theorem lifeRoot_life (env : Env) {s : Session} (hs : CleanSession exKeep 0 1 lifeInv1 s) :
    Life exKeep env exArgs "a".toList (subFS (lifeRoot s) "o".toList) 2 (nextInv lifeInv1 s) := by
  unfold lifeRoot
  rw [subFS_applyOps_lift]
  unfold applyOps
  rw [List.foldl_append, List.foldl_append]
  exact life_next (life_next (life_start env) exFirst_clean) hs

/-- the object with two versions that both brought content validates -/
example (env : Env) (blank : Inv) :
    ∃ F, checkFolder exKeep env false blank (lifeRoot exSecond) "o".toList = .ok F ∧ NoErrors F :=
  (C80_life_accepted_iff (codecWorld_codec _) (codecWorld_hex _) exKeep_lower (fun _ => rfl) exArgs_good
    (lifeRoot_life env exSecond_clean) (by decide) rfl).2 ⟨rfl, by unfold GoodName; decide, by
      intro v ver hv
      have h : ∀ e ∈ (nextInv lifeInv1 exSecond).versions, ∃ m ∈ (nextInv lifeInv1 exSecond).manifest, ∃ x ∈ m.2,
          hasPrefix x ((e.1 ++ '/' :: (nextInv lifeInv1 exSecond).contentDir) ++ "/".toList) = true := by decide
      obtain ⟨⟨d, m⟩, hm, x, hx, hp⟩ := h (v, ver) hv
      obtain ⟨q, rfl⟩ := pfx_iff.1 hp
      exact ⟨d, m, q, hm, hx⟩⟩

/-- **C80 is violated**: after a session that only renames a file, validation on a local disk fails. -/
theorem C80_full_fails_rename (env : Env) (blank : Inv) :
    ¬ ∃ F, checkFolder exKeep env false blank (lifeRoot exRename) "o".toList = .ok F ∧ NoErrors F := by
  intro hF
  obtain ⟨_, _, h⟩ := (C80_life_accepted_iff (codecWorld_codec _) (codecWorld_hex _) exKeep_lower (fun _ => rfl) exArgs_good
    (lifeRoot_life env exRename_clean) (by decide) rfl).1 hF
  have h1 : ∃ e ∈ (nextInv lifeInv1 exRename).versions, ∀ m ∈ (nextInv lifeInv1 exRename).manifest, ∀ x ∈ m.2,
      hasPrefix x ((e.1 ++ '/' :: (nextInv lifeInv1 exRename).contentDir) ++ "/".toList) = false := by decide
  obtain ⟨⟨v, ver⟩, hv, h1⟩ := h1
  obtain ⟨d, m, q, hm, hq⟩ := h v ver hv
  have := h1 (d, m) hm _ hq
  rw [pfx_iff.2 ⟨q, rfl⟩] at this
  cases this

theorem C80_full_fails : ¬ C80_full := fun h =>
  C80_full_fails_rename exEnv ockInv (h exKeep exEnv false ockInv exArgs "a".toList _ 2 _ _ _ (codecWorld_codec _)
    (codecWorld_hex _) exKeep_lower (fun _ => rfl) exArgs_good rfl (lifeRoot_life exEnv exRename_clean) (by decide) rfl)

end Gocfl
