import Verif.Props.Cmd

/-!
# C122: an `add` that failed can be repeated

`add` that fails, or is interrupted, half way leaves files in the folder of the object.  A later `add` of the same id
finds them, takes the object for stored, changes nothing and ends without an error.
-/

namespace Gocfl

/-! ## Specification -/

/-- **C122, in full** (false): after an `add` that ended with an error, adding the object again (as often with other
arguments, corrected) either ends with an error or stores the inventory it would have stored the first time. -/
def C122_full : Prop :=
  ∀ (w : World) (env : Env) (plain : Bool) (blank : Inv) (ls : List (Str → Res Str)) (a a' : CreateArgs) (fs : FS) (id : Str)
    (s s' : Session),
    (addCmd w env plain blank ls a fs id s).2 ≠ none →
    let fs' := applyOps fs (addCmd w env plain blank ls a fs id s).1
    (addCmd w env plain blank ls a' fs' id s').2 = none →
    mget (applyOps fs' (addCmd w env plain blank ls a' fs' id s').1) (under (rootPath ls id).1 rootInvPath) =
      mget (applyOps fs (addCmd w env plain blank ls a' fs id s').1) (under (rootPath ls id).1 rootInvPath)

/-! ## What `add` does for a free id -/

theorem objectExists_path {ls : List (Str → Res Str)} {fs : FS} {id : Str} {b : Bool} (h : objectExists ls fs id = .ok b) :
    (rootPath ls id).2 = false := by
  unfold objectExists at h
  split at h
  · cases h
  · rename_i hh; exact Bool.eq_false_iff.2 hh

theorem objectExists_of_file {ls : List (Str → Res Str)} {fs : FS} {id p : Str} (hr : (rootPath ls id).2 = false)
    (h : mget fs (under (rootPath ls id).1 p) ≠ none) : objectExists ls fs id = .ok true := by
  cases hx : objectExists ls fs id with
  | error e => unfold objectExists at hx; rw [hr] at hx; cases hx
  | ok b => rw [(C94_exists_exact _ _ _ _ hx).2 ⟨p, Option.ne_none_iff_exists'.1 h⟩]

theorem createObject_ops {ls : List (Str → Res Str)} {a : CreateArgs} {fs : FS} {id : Str}
    (h : subFS fs (rootPath ls id).1 = []) :
    (createObject ls a fs id).1 = (writeFile (declName a.version) (asBytes (objDecl ++ a.version ++ "\n".toList))).map
      (FsOp.lift (rootPath ls id).1) := by
  unfold createObject initObject
  simp [h]

/-- the changes of `add` begin with the declaration file -/
theorem addCmd_free {w : World} {env : Env} {plain : Bool} {blank : Inv} {ls : List (Str → Res Str)} {a : CreateArgs} {fs : FS}
    {id : Str} {s : Session} (h : objectExists ls fs id = .ok false) :
    ∃ t, (addCmd w env plain blank ls a fs id s).1 =
        (writeFile (declName a.version) (asBytes (objDecl ++ a.version ++ "\n".toList)) ++ t).map (FsOp.lift (rootPath ls id).1) ∧
      ((t = [] ∧ (addCmd w env plain blank ls a fs id s).2 ≠ none) ∨
        (t = (session w (newInv id a.spec a.alg a.contentDir a.fixity) s).obj.trace ∧
          (addCmd w env plain blank ls a fs id s).2 = (session w (newInv id a.spec a.alg a.contentDir a.fixity) s).err)) := by
  have hnil : subFS fs (rootPath ls id).1 = [] := by
    by_contra hne
    have : objectExists ls fs id = .ok true := by
      unfold objectExists
      rw [objectExists_path h]
      simp [hne]
    rw [h] at this
    cases this
  have hops := createObject_ops (a := a) hnil
  unfold addCmd
  rw [h]
  simp only
  unfold addObjectByPath
  rw [h]
  simp only
  cases hc : (createObject ls a fs id).2 with
  | error e =>
    refine ⟨[], ?_, .inl ⟨rfl, by simp⟩⟩
    simp only [List.append_nil]
    exact hops
  | ok x =>
    obtain ⟨folder, inv⟩ := x
    obtain ⟨rfl, rfl, _, _⟩ := createObject_ok hc
    refine ⟨_, ?_, .inr ⟨rfl, rfl⟩⟩
    simp only [inFolder]
    rw [hops, List.map_append]

/-- **C122.** Whatever an `add` of a free id wrote before it failed, was interrupted or ended: as soon as it wrote
anything, every later `add` of the id, with whatever arguments, does nothing and reports no error. -/
theorem C122_blocked {w : World} {env : Env} {plain : Bool} {blank : Inv} {ls : List (Str → Res Str)} {a : CreateArgs} {fs : FS}
    {id : Str} {s : Session} (h : objectExists ls fs id = .ok false) {t : List FsOp}
    (ht : CrashPrefix t (addCmd w env plain blank ls a fs id s).1) (hne : t ≠ []) (a' : CreateArgs) (s' : Session) :
    addCmd w env plain blank ls a' (applyOps fs t) id s' = ([], none) := by
  obtain ⟨u, hu, _⟩ := addCmd_free (w := w) (env := env) (plain := plain) (blank := blank) (a := a) (s := s) h
  rw [hu] at ht
  have hhead : ∃ t', t = .create (under (rootPath ls id).1 (declName a.version)) :: t' := by
    unfold writeFile at ht
    simp only [List.cons_append, List.map_cons, FsOp.lift] at ht
    cases ht with
    | stop => exact absurd rfl hne
    | next op h => exact ⟨_, rfl⟩
  obtain ⟨t', rfl⟩ := hhead
  have hx : objectExists ls (applyOps fs (.create (under (rootPath ls id).1 (declName a.version)) :: t')) id = .ok true := by
    apply objectExists_of_file (objectExists_path h) (p := declName a.version)
    rw [applyOps_cons]
    apply mget_applyOps_ne_none
    simp [FsOp.apply]
  unfold addCmd
  rw [hx]

theorem crashPrefix_refl (t : List FsOp) : CrashPrefix t t := by
  induction t with
  | nil => exact .stop _
  | cons op t ih => exact .next op ih

/-- **C122.** In particular after every `add` of a free id that ended with an error. -/
theorem C122_failed_blocked {w : World} {env : Env} {plain : Bool} {blank : Inv} {ls : List (Str → Res Str)} {a : CreateArgs}
    {fs : FS} {id : Str} {s : Session} (h : objectExists ls fs id = .ok false) (a' : CreateArgs) (s' : Session) :
    addCmd w env plain blank ls a' (applyOps fs (addCmd w env plain blank ls a fs id s).1) id s' = ([], none) := by
  refine C122_blocked h (crashPrefix_refl _) ?_ a' s'
  obtain ⟨u, hu, _⟩ := addCmd_free (w := w) (env := env) (plain := plain) (blank := blank) (a := a) (s := s) h
  rw [hu]
  simp [writeFile]

theorem session_failed_trace {w : World} {inv : Inv} {s : Session} (h : (session w inv s).err ≠ none) :
    (session w inv s).obj.trace = (sessionOpen w inv s).obj.trace := by
  unfold session at h ⊢
  cases he : (sessionOpen w inv s).err with
  | some e => rw [andThen_some he]
  | none =>
    rw [andThen_none he] at h ⊢
    rcases closeObj_cases w (sessionOpen w inv s).obj s.exts with ⟨h1, _⟩ | ⟨_, _, _, h1, _⟩ | ⟨_, _, f, _, h1⟩
    · rw [h1] at h; exact absurd rfl h
    · rw [h1]
    · rw [h1] at h; exact absurd rfl h

theorem newInv_cdir {id spec alg cd : Str} {fa : List Str} (hcd : cd ≠ ".".toList ∧ cd ≠ "..".toList ∧ '/' ∉ cd) :
    ValidComp (newInv id spec alg cd fa).contentDir := by
  unfold Inv.contentDir
  split
  · exact ⟨by decide, by decide, by decide, by decide⟩
  · rename_i hne
    exact ⟨hne, hcd⟩

/-- **C122.** After an `add` of a free id that failed, the object has no inventory: opening and updating it end with an
error, for ever, while `add` goes on to report that all is well.  (A content directory and names of files that stay
inside the version folder; the store names a missing file as such, `plain`.) -/
theorem C122_failed_stuck {w : World} {env : Env} {blank : Inv} {ls : List (Str → Res Str)} {a : CreateArgs}
    {fs : FS} {id : Str} {s : Session} (h : objectExists ls fs id = .ok false) (hs : SafeNames w s)
    (hcd : a.contentDir ≠ ".".toList ∧ a.contentDir ≠ "..".toList ∧ '/' ∉ a.contentDir)
    (hf : (addCmd w env true blank ls a fs id s).2 ≠ none) (a' : CreateArgs) (s' : Session) :
    let fs' := applyOps fs (addCmd w env true blank ls a fs id s).1
    mget fs' (under (rootPath ls id).1 rootInvPath) = none ∧
    (∃ e, loadByID w env true blank ls fs' id = .error e) ∧
    (∃ e, updateCmd w env true blank ls a' fs' id s' = ([], some e)) ∧
    addCmd w env true blank ls a' fs' id s' = ([], none) := by
  intro fs'
  have hx : objectExists ls fs' id = .ok true := by
    have := C122_failed_blocked (w := w) (env := env) (plain := true) (blank := blank) (a := a) (s := s) h a' s'
    obtain ⟨u, hu, _⟩ := addCmd_free (w := w) (env := env) (plain := true) (blank := blank) (a := a) (s := s) h
    apply objectExists_of_file (objectExists_path h) (p := declName a.version)
    show mget (applyOps fs (addCmd w env true blank ls a fs id s).1) _ ≠ none
    rw [hu]
    simp only [writeFile, List.cons_append, List.nil_append, List.map_cons, FsOp.lift, applyOps_cons]
    apply mget_applyOps_ne_none
    simp [FsOp.apply]
  have hnone : mget fs' (under (rootPath ls id).1 rootInvPath) = none := by
    have h0 : mget fs (under (rootPath ls id).1 rootInvPath) = none := by
      by_contra hne
      rw [objectExists_of_file (objectExists_path h) hne] at h
      cases h
    obtain ⟨t, hu, ht⟩ := addCmd_free (w := w) (env := env) (plain := true) (blank := blank) (a := a) (s := s) h
    show mget (applyOps fs (addCmd w env true blank ls a fs id s).1) _ = none
    rw [hu, ← h0]
    apply mget_applyOps_ne
    intro op hop
    obtain ⟨op', hop', rfl⟩ := List.mem_map.1 hop
    rw [lift_path]
    intro he
    have he := under_inj.1 he
    rcases List.mem_append.1 hop' with hd | hd
    · have : op'.path = declName a.version := by
        rcases (by simpa [writeFile] using hd : op' = _ ∨ op' = _) with rfl | rfl <;> rfl
      rw [he] at this
      have := congrArg List.head? this
      revert this
      show some 'i' = some '0' → False
      decide
    · rcases ht with ⟨rfl, _⟩ | ⟨rfl, he2⟩
      · cases hd
      · rw [session_failed_trace (by rw [← he2]; exact hf)] at hd
        exact newPath_ne_old (newInv_cdir hcd) (fun p a i hu hi => hs (p, a) hu i hi)
          (sessionOpen_trace (newInv_wf _ _ _ _ _) s op' hd) (.inl he) rfl
  have hload : ∃ e, loadByID w env true blank ls fs' id = .error e := by
    unfold loadByID
    rw [objectExists_path h]
    simp only [Bool.false_eq_true, if_false]
    unfold loadByFolder
    split
    · unfold loadInventory
      rw [mget_subFS, hnone]
      exact ⟨_, rfl⟩
    · exact ⟨_, rfl⟩
  refine ⟨hnone, hload, ?_, C122_failed_blocked h a' s'⟩
  obtain ⟨e, he⟩ := hload
  refine ⟨e, ?_⟩
  unfold updateCmd
  rw [hx]
  simp only
  unfold addObjectByPath
  rw [hx]
  simp only [he]

/-- **C122, the part that holds**: an `add` refused because no folder can be computed for the id, or because the folder
has files, changes nothing, so that any later `add` does what it would have done. -/
theorem C122_refused_partial {w : World} {env : Env} {plain : Bool} {blank : Inv} {ls : List (Str → Res Str)} {a : CreateArgs}
    {fs : FS} {id : Str} {s : Session}
    (h : objectExists ls fs id ≠ .ok false) : applyOps fs (addCmd w env plain blank ls a fs id s).1 = fs := by
  unfold addCmd
  cases hx : objectExists ls fs id with
  | error e => rfl
  | ok b =>
    cases b with
    | true => rfl
    | false => exact absurd hx h

/-! ## The full claim fails -/

/-- SHA-512 with an algorithm for fixity no extension provides -/
def badFixity : CreateArgs := { exArgs with fixity := ["md5".toList] }

theorem badFixity_fails (w : World) (env : Env) (plain : Bool) (blank : Inv) (s : Session) :
    (addCmd w env plain blank flatLayout badFixity [] "a".toList s).2 ≠ none := by
  have h : objectExists flatLayout [] "a".toList = .ok false := by decide
  have hc : (createObject flatLayout badFixity [] "a".toList).2 =
      .error (.error "forbidden digest algorithm for fixity") := by rfl
  unfold addCmd
  rw [h]
  simp only
  unfold addObjectByPath
  rw [h]
  simp only [hc]
  simp

/-- **C122 is violated**: `add --fixity md5` without the extension that allows it fails; the same `add` without
`--fixity` then reports success, but there is no object. -/
theorem C122_full_fails : ¬ C122_full := by
  intro hf
  have h : objectExists flatLayout [] "a".toList = .ok false := by decide
  have h1 := hf exKeep exEnv true (blankInv [] []) flatLayout badFixity exArgs [] "a".toList (exSession "c/d".toList)
    (exSession "c/d".toList) (badFixity_fails _ _ _ _ _)
  have hb := C122_failed_blocked (w := exKeep) (env := exEnv) (plain := true) (blank := blankInv [] []) (a := badFixity)
    (s := exSession "c/d".toList) h exArgs (exSession "c/d".toList)
  simp only [hb] at h1
  have h2 := h1 trivial
  have hs := C122_failed_stuck (w := exKeep) (env := exEnv) (blank := blankInv [] []) (a := badFixity) h exNames
    ⟨by decide, by decide, by decide⟩ (badFixity_fails _ _ _ _ _) exArgs (exSession "c/d".toList)
  rw [applyOps_nil, hs.1] at h2
  have hd : applyOps [] (addCmd exKeep exEnv true (blankInv [] []) flatLayout exArgs [] "a".toList (exSession "c/d".toList)).1 =
      exStore flatLayout "a".toList := by
    unfold addCmd
    rw [h]
    simp only
    unfold addObjectByPath
    rw [h]
    simp only
    rw [exCreated]
    simp only [inFolder]
    rw [applyOps_append]
    rfl
  obtain ⟨f, hl⟩ := exStore_load exEnv true (blankInv [] []) flatLayout (by decide) "a".toList (by decide)
  obtain ⟨_, b, _, h4, _⟩ := loadByID_ok hl
  rw [hd, h4] at h2
  cases h2

end Gocfl
