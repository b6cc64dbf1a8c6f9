import Verif.Model.SpecVersion
import Verif.Props.Life
import Verif.Props.AddedFile

/-! # C193: the version an object declares and the type of its inventory -/

namespace Gocfl

/-- the type of inventories of version `v` of the specification -/
def TypeFor (v : Str) : Str := "https://ocfl.io/".toList ++ (v ++ "/spec/#inventory".toList)

/-- the folder of an object declares this version -/
def Declares (fs : FS) (v : Str) : Prop := getVersion objDecl (topFiles fs) = .version v

/-! ## Objects made by the tool -/

theorem session_decl {w : World} (hL : LowerHash w) {fs : FS} {N : Nat} {inv : Inv} {s : Session} {num : Str} (hI : Intact w fs 0 N inv)
    (hs : CleanSession w 0 N inv s) (hn : IsVersionNum num) :
    mget (applyOps fs (session w inv s).obj.trace) (declName num) = mget fs (declName num) := by
  obtain ⟨i, o, f, D⟩ := deposited hL hI.ok hs.names hs.rounds hs.completes hs.modified
  rcases D.changed hI.ok fs (declName num) with hw | hu
  · exfalso
    have hns := declName_slash hn
    generalize hgen : declName num = y at hw hns
    cases hw with
    | ext n => exact hns (by rw [ext_eq]; simp)
    | content q _ => exact hns (by simp)
    | verInv => exact hns (by simp)
    | verSidecar => exact hns (by simp)
    | root => exact absurd (List.cons.inj hgen).1 (by decide)
    | sidecar => exact absurd (List.cons.inj hgen).1 (by decide)
  · exact hu

theorem life_declared {w : World} (hc : Codec w) (hx : HexHash w) (hL : LowerHash w) (ht : ∀ t, w.time (w.time t) = w.time t) {env : Env}
    {a : CreateArgs} {id : Str} (hg : GoodArgs a id) {fs : FS} {N : Nat} {inv : Inv} (h : Life w env a id fs N inv) :
    mget fs (declName a.version) = some (asBytes (objDecl ++ a.version ++ "\n".toList)) := by
  induction h with
  | new inv hi =>
    have hE : (initObject a [] id).1 = writeFile (declName a.version) (asBytes (objDecl ++ a.version ++ "\n".toList)) := by
      unfold initObject; simp [mget]
    rw [hE]
    simp [writeFile, applyOps, FsOp.apply, mset, mget]
  | session fs N inv inv' s f h0 hs hl ih =>
    rw [session_decl hL (life_alive hc hx hL ht hg h0).intact hs hg.version]
    exact ih

theorem alive_declares {w : World} {a : CreateArgs} {id : Str} (hg : GoodArgs a id) {fs : FS} {N : Nat} {inv : Inv} (A : Alive w a id fs N inv)
    (hd : mget fs (declName a.version) = some (asBytes (objDecl ++ a.version ++ "\n".toList))) : Declares fs a.version := by
  obtain ⟨num, hn, h1, h2⟩ := A.intact.decl
  refine getVersion_topFiles hg.version A.intact.nodup hd (fun k hk hs => ?_)
  obtain ⟨b, hb⟩ := Option.ne_none_iff_exists'.1 hk
  have he : declName a.version = declName num := by
    rcases h2 _ _ hd (declName_slash hg.version) with h | h | h
    · exact h
    · exact absurd (List.cons.inj h).1 (by decide)
    · exact absurd (List.cons.inj h).1 (by decide)
  rcases h2 k b hb hs with h | h | h
  · exact Or.inl (h.trans he.symm)
  · right; rw [h]; decide
  · right; rw [h]
    rcases hg.alg with h | h <;> (rw [A.alg, h]; decide)

theorem objectVersion_supported {v : Str} (h : supportedRoot v = true) : objectVersion v = v := by
  unfold supportedRoot at h
  simp only [Bool.or_eq_true, decide_eq_true_eq] at h
  rcases h with (rfl | rfl) | rfl <;> rfl

/-- An object made in a storage root declares the version of the storage root, from its creation on; its inventory has the type of this
version unless that is 2.0. -/
theorem C193_created_iff {w : World} (hc : Codec w) (hx : HexHash w) (hL : LowerHash w) (ht : ∀ t, w.time (w.time t) = w.time t) {env : Env}
    {a : CreateArgs} {v id : Str} (hv : supportedRoot v = true) (hg : GoodArgs (versionArgs a v) id) {fs : FS} {N : Nat} {inv : Inv}
    (h : Life w env (versionArgs a v) id fs N inv) : Declares fs v ∧ (inv.spec = TypeFor v ↔ v ≠ "2.0".toList) := by
  have A := life_alive hc hx hL ht hg h
  have hD := alive_declares hg A (life_declared hc hx hL ht hg h)
  have e : (versionArgs a v).version = v := objectVersion_supported hv
  rw [e] at hD
  refine ⟨hD, ?_⟩
  rw [A.spec, show (versionArgs a v).spec = inventoryType v by unfold versionArgs; rw [objectVersion_supported hv]]
  unfold supportedRoot at hv
  simp only [Bool.or_eq_true, decide_eq_true_eq] at hv
  rcases hv with (rfl | rfl) | rfl <;> decide

/-- The part of C193 that holds: for the versions 1.0 and 1.1. -/
theorem C193_created_partial {w : World} (hc : Codec w) (hx : HexHash w) (hL : LowerHash w) (ht : ∀ t, w.time (w.time t) = w.time t) {env : Env}
    {a : CreateArgs} {v id : Str} (hv : v = "1.0".toList ∨ v = "1.1".toList) (hg : GoodArgs (versionArgs a v) id) {fs : FS} {N : Nat} {inv : Inv}
    (h : Life w env (versionArgs a v) id fs N inv) : Declares fs v ∧ inv.spec = TypeFor v := by
  have := C193_created_iff hc hx hL ht (by rcases hv with rfl | rfl <;> decide) hg h
  exact ⟨this.1, this.2.2 (by rcases hv with rfl | rfl <;> decide)⟩

/-- The full claim about objects made by the tool. -/
def C193_full : Prop := ∀ (w : World) (env : Env) (a : CreateArgs) (v id : Str) (fs : FS) (N : Nat) (inv : Inv), Codec w → HexHash w → LowerHash w →
  (∀ t, w.time (w.time t) = w.time t) → supportedRoot v = true → GoodArgs (versionArgs a v) id → 1 ≤ N → Life w env (versionArgs a v) id fs N inv →
  Declares fs v ∧ inv.spec = TypeFor v

theorem versionArgs_good {v : Str} : GoodArgs (versionArgs exArgs v) "a".toList := by
  have hn : IsVersionNum (objectVersion v) := by
    unfold objectVersion
    split
    · exact ⟨"1".toList, "1".toList, by decide, by decide, by decide, by decide, rfl⟩
    · split
      · exact ⟨"2".toList, "0".toList, by decide, by decide, by decide, by decide, rfl⟩
      · exact ⟨"1".toList, "0".toList, by decide, by decide, by decide, by decide, rfl⟩
  have hc : exArgs.contentDir ≠ ".".toList ∧ exArgs.contentDir ≠ "..".toList ∧ '/' ∉ exArgs.contentDir := ⟨by decide, by decide, by decide⟩
  refine ⟨by decide, hn, ?_, hc, Or.inl rfl⟩
  show inventoryType (objectVersion v) ≠ []
  unfold inventoryType
  split <;> decide

theorem versionLife (env : Env) (v : Str) : Life exKeep env (versionArgs exArgs v) "a".toList
    (applyOps [] (initObject (versionArgs exArgs v) [] "a".toList).1) 0
    (newInv "a".toList (inventoryType (objectVersion v)) exArgs.alg exArgs.contentDir exArgs.fixity) := .new _ rfl

theorem versionLife_next {env : Env} {v : Str} {fs : FS} {N : Nat} {inv : Inv} {s : Session}
    (h : Life exKeep env (versionArgs exArgs v) "a".toList fs N inv) (hs : CleanSession exKeep 0 N inv s) :
    Life exKeep env (versionArgs exArgs v) "a".toList (applyOps fs (session exKeep inv s).obj.trace) (N + 1) (nextInv inv s) := by
  have A := life_alive (codecWorld_codec _) (codecWorld_hex _) exKeep_lower (fun _ => rfl) versionArgs_good h
  obtain ⟨r, hd, _, hV, _⟩ := C80_session_valid (codecWorld_codec _) (codecWorld_hex _) exKeep_lower (fun _ => rfl) A.intact hs
  have h1 : exKeep.dec (exKeep.enc (session exKeep inv s).obj.inv) = some (rawOf (stampInv (fun t => t) (session exKeep inv s).obj.inv)) :=
    exDec_enc _ _
  have hd : exKeep.dec (exKeep.enc (session exKeep inv s).obj.inv) = some r := hd
  rw [h1] at hd
  cases hd
  obtain ⟨f, hf⟩ := load_valid_any env hV.stored hV.decoded hV.inv
  exact .session fs N inv _ s f h hs hf

theorem versionFirst_clean : CleanSession exKeep 0 0
    (newInv "a".toList (inventoryType (objectVersion "2.0".toList)) exArgs.alg exArgs.contentDir exArgs.fixity) (exSession "c/d".toList) where
  names := exNames
  rounds := rfl
  distinct := by decide
  completes := by decide
  modified := by decide
  paths := headPaths_of (p := 0) (N := 1) (validInv_of (by decide))
  width := by decide

/-- C193 is violated: in a storage root of version 2.0 objects declare 2.0 and have inventories of type 1.0. -/
theorem C193_full_fails : ¬ C193_full := by
  intro hf
  have := hf exKeep exEnv exArgs "2.0".toList "a".toList _ 1 _ (codecWorld_codec _) (codecWorld_hex _) exKeep_lower (fun _ => rfl) (by decide)
    versionArgs_good (Nat.le_refl 1) (versionLife_next (versionLife exEnv "2.0".toList) versionFirst_clean)
  exact absurd this.2 (by decide)

example : Declares (applyOps [] (initObject (versionArgs exArgs "1.0".toList) [] "a".toList).1) "1.0".toList :=
  (C193_created_partial (codecWorld_codec _) (codecWorld_hex _) exKeep_lower (fun _ => rfl) (.inl rfl) versionArgs_good
    (versionLife exEnv "1.0".toList)).1

/-! ## Validation does not compare -/

theorem mget_replaced {l m : FS} {k k' x : Str} {b b' : Bytes} (h : x ≠ k) (h' : x ≠ k') :
    mget (l ++ (k', b') :: m) x = mget (l ++ (k, b) :: m) x := by
  induction l with
  | nil =>
    show (if k' = x then some b' else mget m x) = if k = x then some b else mget m x
    rw [if_neg (Ne.symm h), if_neg (Ne.symm h')]
  | cons e l ih => obtain ⟨a, c⟩ := e; simp only [mget, List.cons_append]; rw [ih]

theorem declared_replaced {l m : FS} {num num' : Str} {b : Bytes} (hn : IsVersionNum num) (hn' : IsVersionNum num')
    (h : ∃ v, Declares (l ++ (declName num, b) :: m) v) :
    Declares (l ++ (declName num', asBytes (objDecl ++ num' ++ "\n".toList)) :: m) num' := by
  obtain ⟨v, h⟩ := h
  obtain ⟨e, he, _⟩ := getVersion_version h
  have hmid : ∀ k x, IsVersionNum k → declFiles objDecl (topFiles (l ++ (declName k, x) :: m)) =
      declFiles objDecl (topFiles l) ++ ((⟨declName k, false, some (bytesStr x)⟩ : DirEnt), k) :: declFiles objDecl (topFiles m) := by
    intro k x hk
    have : topFiles ((declName k, x) :: m) = ⟨declName k, false, some (bytesStr x)⟩ :: topFiles m := by
      unfold topFiles
      rw [List.filterMap_cons]
      simp only [declName_slash hk, if_false]
    have hf : declFind objDecl (declName k) = some k := declFind_exact hk
    rw [topFiles_append, this, declFiles_append, declFiles_cons]
    simp only [hf]
    rfl
  rw [hmid _ _ hn] at he
  have hl : declFiles objDecl (topFiles l) = [] := by
    cases hl : declFiles objDecl (topFiles l) with
    | nil => rfl
    | cons a t => rw [hl] at he; simp at he
  rw [hl] at he
  have hm : declFiles objDecl (topFiles m) = [] := (List.cons.inj he).2
  have hb : bytesStr (asBytes (objDecl ++ num' ++ "\n".toList)) = objDecl ++ num' ++ "\n".toList := by
    refine bytesStr_asBytes (fun c hc => ?_)
    obtain ⟨a, b, _, _, ha, hb, rfl⟩ := hn'
    simp only [List.mem_append, List.mem_cons] at hc
    have hdig : ∀ c : Char, c.isDigit = true → c.toNat < 256 := by
      intro c hc
      simp only [Char.isDigit, Bool.and_eq_true, decide_eq_true_eq] at hc
      have := UInt32.le_iff_toNat_le.1 hc.2
      exact lt_of_le_of_lt this (by decide)
    have hlit : ∀ c ∈ objDecl, c.toNat < 256 := by decide
    have hnl : ∀ c ∈ "\n".toList, c.toNat < 256 := by decide
    rcases hc with (hc | hc | rfl | hc) | hc
    · exact hlit c hc
    · exact hdig c (ha c hc)
    · decide
    · exact hdig c (hb c hc)
    · exact hnl c hc
  unfold Declares
  rw [getVersion_eq, hmid _ _ hn', hl, hm, hb]
  simp

theorem objAccepted_redeclared {w : World} {plain : Bool} {l m : FS} {num num' : Str} {b : Bytes} {r : RawInv} (hn : IsVersionNum num)
    (hn' : IsVersionNum num') (O : ObjAccepted w plain (l ++ (declName num, b) :: m) r) :
    ObjAccepted w plain (l ++ (declName num', asBytes (objDecl ++ num' ++ "\n".toList)) :: m) r := by
  have hdecl := declared_replaced hn hn' O.declared
  have hg : ∀ x, x ≠ declName num → x ≠ declName num' →
      mget (l ++ (declName num', asBytes (objDecl ++ num' ++ "\n".toList)) :: m) x = mget (l ++ (declName num, b) :: m) x :=
    fun x h h' => mget_replaced h h'
  generalize l ++ (declName num', asBytes (objDecl ++ num' ++ "\n".toList)) :: m = fs' at *
  generalize l ++ (declName num, b) :: m = fs at *
  have hs : ∀ d q, mget fs (d ++ '/' :: q) = mget fs' (d ++ '/' :: q) := fun d q =>
    (hg _ (fun h => declName_slash hn (by rw [← h]; simp)) (fun h => declName_slash hn' (by rw [← h]; simp))).symm
  have hi : ∀ (x : Str) c t, x = c :: t → c ≠ '0' → mget fs x = mget fs' x := fun x c t hx hc =>
    (hg x (fun h => hc (List.cons.inj (hx.symm.trans h)).1) (fun h => hc (List.cons.inj (hx.symm.trans h)).1)).symm
  have hsub : ∀ v i, InvAt w (subFS fs v) i ↔ InvAt w (subFS fs' v) i := by
    intro v i
    have e : ∀ q, mget (subFS fs v) q = mget (subFS fs' v) q := fun q => by rw [mget_subFS, mget_subFS]; exact hs v q
    unfold InvAt StoredInv
    simp only [e]
  have hroot : InvAt w fs' r := by
    obtain ⟨⟨b, sb, hash, h1, h2, h3, h4, h5⟩, hC⟩ := O.root
    refine ⟨⟨b, sb, hash, ?_, h2, h3, ?_, h5⟩, hC⟩
    · rw [← hi rootInvPath 'i' "nventory.json".toList rfl (by decide)]; exact h1
    · rw [← hi (rootSidecarPath r.inv.digestAlg) 'i' ("nventory.json.".toList ++ r.inv.digestAlg) rfl (by decide)]; exact h4
  refine ⟨⟨num', hdecl⟩, hroot, ?_, fun d q b hb hd => O.dirs d q b (by rw [hs]; exact hb) hd, ?_,
    fun v n b hv hb hns => O.versionFiles v n b hv (by rw [hs]; exact hb) hns, ?_, part_same (fun v _ q => hs v q) O.part, ?_, ?_, ?_, ?_, ?_, ?_⟩
  · intro n b hb hns
    by_cases h1 : n = declName num
    · exact Or.inr ⟨num, hn, h1⟩
    · by_cases h2 : n = declName num'
      · exact Or.inr ⟨num', hn', h2⟩
      · exact O.files n b (by rw [← hg n h1 h2]; exact hb) hns
  · intro v hv
    obtain ⟨q, b, hb⟩ := O.folders v hv
    exact ⟨q, b, by rw [← hs]; exact hb⟩
  · intro hp v hv
    obtain ⟨t, b, hb⟩ := O.content hp v hv
    refine ⟨t, b, ?_⟩
    simp only [List.append_assoc, List.cons_append] at hb ⊢
    rw [← hs]; exact hb
  · intro a ha
    exact (O.fixityAlgs a ha).imp_right (fun ⟨v, i, hvk, hi, h⟩ => ⟨v, i, hvk, (hsub v i).1 hi, h⟩)
  · intro v hvk hor
    rw [show v ++ "/inventory.json".toList = v ++ '/' :: "inventory.json".toList from rfl, ← hs]
    exact O.inventory v hvk hor
  · intro v hvk hne
    rw [show v ++ "/inventory.json".toList = v ++ '/' :: "inventory.json".toList from rfl, ← hs] at hne
    obtain ⟨i, hi, V⟩ := O.versions v hvk hne
    exact ⟨i, (hsub v i).1 hi, V.id, V.head, V.known, V.agree, part_same (fun v _ q => hs v q) V.part,
      fun n b hb hns => V.files n b (by rw [hs]; exact hb) hns⟩
  · intro u v i j hu hvk h1 hi hj
    exact O.contentDirectory u v i j hu hvk h1 ((hsub u i).2 hi) ((hsub v j).2 hj)
  · intro u v i j n hu hvk h1 h2 hi hj
    exact O.specs u v i j n hu hvk h1 h2 ((hsub u i).2 hi) ((hsub v j).2 hj)
  · intro i hi
    exact O.last i ((hsub _ i).2 hi)

/-- An object that validates still validates after its declaration was replaced by that of any other version. -/
theorem C193_not_compared {w : World} {env : Env} {plain : Bool} {blank : Inv} {fs fs' : FS} {folder : Str} {l m : FS} {num num' : Str} {b : Bytes}
    (hlow : LowerHash w) (hn : IsVersionNum num) (hn' : IsVersionNum num') (hfs : subFS fs folder = l ++ (declName num, b) :: m)
    (hfs' : subFS fs' folder = l ++ (declName num', asBytes (objDecl ++ num' ++ "\n".toList)) :: m)
    (h : ∃ F, checkFolder w env plain blank fs folder = .ok F ∧ NoErrors F) :
    Declares (subFS fs' folder) num' ∧ ∃ F, checkFolder w env plain blank fs' folder = .ok F ∧ NoErrors F := by
  rw [C184_accepted_iff hlow] at h ⊢
  rw [hfs] at h
  rw [hfs']
  obtain ⟨r, O⟩ := h
  exact ⟨declared_replaced hn hn' O.declared, r, objAccepted_redeclared hn hn' O⟩

/-- The full claim about validation. -/
def C193_full_checked : Prop := ∀ (w : World) (env : Env) (plain : Bool) (blank : Inv) (fs : FS) (folder v : Str) (r : RawInv), LowerHash w →
  (∃ F, checkFolder w env plain blank fs folder = .ok F ∧ NoErrors F) → Declares (subFS fs folder) v → StoredInv w (subFS fs folder) r →
  r.inv.spec = TypeFor v

/-- the example object of type 1.1, with another declaration -/
def otherDeclFS : FS :=
  ("o/0=ocfl_object_7.3".toList, asBytes "ocfl_object_7.3\n".toList) :: ockFS.tail

/-- C193 is violated: objects validate whatever version they declare. -/
theorem C193_full_fails_checked : ¬ C193_full_checked := by
  intro hf
  have h := C193_not_compared (w := ockWorld) (env := exEnv) (plain := false) (blank := ockInv) (fs := ockFS) (fs' := otherDeclFS) (folder := "o".toList)
    (l := []) (num := "1.1".toList) (num' := "7.3".toList) ock_lower ⟨"1".toList, "1".toList, by decide, by decide, by decide, by decide, rfl⟩
    ⟨"7".toList, "3".toList, by decide, by decide, by decide, by decide, rfl⟩ rfl rfl ⟨[], ock_accepted, by simp [NoErrors]⟩
  obtain ⟨r, O⟩ := (C184_accepted_iff ock_lower).1 h.2
  have := hf ockWorld exEnv false ockInv otherDeclFS "o".toList "7.3".toList r ock_lower h.2 h.1 O.root.1
  obtain ⟨b, sb, hash, hb, hr, _⟩ := O.root.1
  have hb' : mget (subFS otherDeclFS "o".toList) rootInvPath = some [9] := by decide
  cases hb'.symm.trans hb
  cases hr
  exact absurd this (by decide)

end Gocfl
