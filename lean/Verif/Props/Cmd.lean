import Verif.Model.Cmd
import Verif.Props.Life

/-! # The commands `add` and `update` (C94, C95) -/

namespace Gocfl

theorem subFS_nil_iff {fs : FS} {f : Str} : subFS fs f = [] ↔ ∀ p, mget fs (under f p) = none := by
  constructor
  · intro h p
    rw [← mget_subFS, h]
    rfl
  · intro h
    by_contra hne
    obtain ⟨⟨p, v⟩, l, he⟩ := List.exists_cons_of_ne_nil hne
    have := mget_subFS fs f p
    rw [he, h p] at this
    simp [mget] at this

/-- **C94**: the answer of `ObjectExists` -/
theorem C94_exists_exact (ls : List (Str → Res Str)) (fs : FS) (id : Str) (b : Bool) (h : objectExists ls fs id = .ok b) :
    b = true ↔ ∃ p data, mget fs (under (rootPath ls id).1 p) = some data := by
  unfold objectExists at h
  split at h
  · cases h
  · cases h
    rw [decide_eq_true_eq, Ne, subFS_nil_iff]
    constructor
    · intro h
      rw [not_forall] at h
      obtain ⟨p, hp⟩ := h
      exact ⟨p, Option.ne_none_iff_exists'.1 hp⟩
    · rintro ⟨p, d, hp⟩ h
      rw [h p] at hp
      cases hp

theorem inFolder_paths (f : Str) (r : Out) : ∀ op ∈ (inFolder f r).1, ∃ q, op.path = under f q := by
  intro op hop
  obtain ⟨o, _, rfl⟩ := List.mem_map.1 hop
  exact ⟨_, lift_path f o⟩

theorem createObject_paths (ls : List (Str → Res Str)) (a : CreateArgs) (fs : FS) (id : Str) :
    ∀ op ∈ (createObject ls a fs id).1, ∃ q, op.path = under (rootPath ls id).1 q := by
  intro op hop
  unfold createObject at hop
  obtain ⟨o, _, rfl⟩ := List.mem_map.1 hop
  exact ⟨_, lift_path _ o⟩

theorem createObject_folder {ls : List (Str → Res Str)} {a : CreateArgs} {fs : FS} {id folder : Str} {inv : Inv}
    (h : (createObject ls a fs id).2 = .ok (folder, inv)) : folder = (rootPath ls id).1 := (createObject_ok h).1

/-- a file stays a file -/
theorem mget_applyOps_ne_none {fs : FS} {t : List FsOp} {p : Str} (h : mget fs p ≠ none) : mget (applyOps fs t) p ≠ none := by
  induction t generalizing fs with
  | nil => exact h
  | cons op t ih =>
    rw [applyOps_cons]
    apply ih
    by_cases hp : op.path = p
    · subst hp
      cases op <;> simp [FsOp.apply, FsOp.path]
    · rwa [mget_apply_ne hp]

/-- everything is written in the folder of the object -/
theorem addObjectByPath_paths (w : World) (env : Env) (plain : Bool) (blank : Inv) (ls : List (Str → Res Str)) (a : CreateArgs)
    (fs : FS) (id : Str) (s : Session) :
    ∀ op ∈ (addObjectByPath w env plain blank ls a fs id s).1, ∃ q, op.path = under (rootPath ls id).1 q := by
  intro op hop
  unfold addObjectByPath at hop
  split at hop
  · cases hop
  · split at hop
    · cases hop
    · exact inFolder_paths _ _ op hop
  · split at hop
    · exact createObject_paths ls a fs id op hop
    · rename_i folder inv hc
      simp only at hop
      rcases List.mem_append.1 hop with hop | hop
      · exact createObject_paths ls a fs id op hop
      · rw [createObject_folder hc] at hop
        exact inFolder_paths _ _ op hop

/-- **C94**, `add`: every file that is in the storage root stays as it is, also if the command fails or is interrupted. -/
theorem C94_add_keeps (w : World) (env : Env) (plain : Bool) (blank : Inv) (ls : List (Str → Res Str)) (a : CreateArgs) (fs : FS)
    (id : Str) (s : Session) (t : List FsOp) (ht : CrashPrefix t (addCmd w env plain blank ls a fs id s).1) (p : Str)
    (data : Bytes) (hp : mget fs p = some data) : mget (applyOps fs t) p = some data := by
  rw [← hp]
  apply mget_applyOps_ne
  intro op hop
  obtain ⟨op', hop', he'⟩ := ht.path hop
  rw [← he']
  unfold addCmd at hop'
  split at hop'
  · cases hop'
  · cases hop'
  · rename_i he
    obtain ⟨q, hq⟩ := addObjectByPath_paths w env plain blank ls a fs id s op' hop'
    rw [hq]
    rintro rfl
    have := (C94_exists_exact ls fs id false he).2 ⟨q, data, hp⟩
    cases this

/-- **C94**, `add`: with success there is an object with that id afterwards (its folder is not empty), and adding again
changes nothing. -/
theorem C94_add_then_exists {w : World} {env : Env} {plain : Bool} {blank : Inv} {ls : List (Str → Res Str)} {a : CreateArgs}
    {fs : FS} {id : Str} {s : Session} (h : (addCmd w env plain blank ls a fs id s).2 = none) (s' : Session) :
    objectExists ls (applyOps fs (addCmd w env plain blank ls a fs id s).1) id = .ok true ∧
      addCmd w env plain blank ls a (applyOps fs (addCmd w env plain blank ls a fs id s).1) id s' = ([], none) := by
  have key : objectExists ls (applyOps fs (addCmd w env plain blank ls a fs id s).1) id = .ok true := by
    cases he : objectExists ls fs id with
    | error e => unfold addCmd at h; rw [he] at h; cases h
    | ok b =>
      have hr : (rootPath ls id).2 = false := by
        unfold objectExists at he
        split at he
        · cases he
        · rename_i hh; exact Bool.eq_false_iff.2 hh
      cases b with
      | true =>
        unfold addCmd
        rw [he]
        exact he
      | false =>
        have hadd : addCmd w env plain blank ls a fs id s = addObjectByPath w env plain blank ls a fs id s := by
          unfold addCmd; rw [he]
        rw [hadd] at h ⊢
        unfold addObjectByPath at h ⊢
        rw [he] at h ⊢
        simp only at h ⊢
        cases hc : (createObject ls a fs id).2 with
        | error e => rw [hc] at h; cases h
        | ok x =>
          obtain ⟨folder, inv⟩ := x
          simp only
          have hf := createObject_folder hc
          obtain ⟨_, _, _, hops⟩ := createObject_ok hc
          rw [hf] at hops
          cases hx : objectExists ls (applyOps fs ((createObject ls a fs id).1 ++ (inFolder folder (session w inv s)).1)) id with
          | error e =>
            unfold objectExists at hx
            rw [hr] at hx
            cases hx
          | ok b =>
            have : b = true := by
              rw [C94_exists_exact _ _ _ _ hx]
              refine ⟨declName a.version, ?_⟩
              rw [applyOps_append]
              apply Option.ne_none_iff_exists'.1
              have h1 : mget (applyOps fs (createObject ls a fs id).1) (under (rootPath ls id).1 (declName a.version)) ≠ none := by
                rw [hops]
                unfold writeFile
                simp [applyOps, FsOp.lift, FsOp.apply]
              exact mget_applyOps_ne_none h1
            rw [this]
  refine ⟨key, ?_⟩
  unfold addCmd at key ⊢
  rw [key]

/-- **C94**, `update`: nothing outside the object's folder changes, and if the folder has no files nothing is created. -/
theorem C94_update_inside (w : World) (env : Env) (plain : Bool) (blank : Inv) (ls : List (Str → Res Str)) (a : CreateArgs)
    (fs : FS) (id : Str) (s : Session) (t : List FsOp) (ht : CrashPrefix t (updateCmd w env plain blank ls a fs id s).1) (p : Str)
    (hp : (∀ q, p ≠ under (rootPath ls id).1 q) ∨ ∀ q, mget fs (under (rootPath ls id).1 q) = none) :
    mget (applyOps fs t) p = mget fs p := by
  apply mget_applyOps_ne
  intro op hop
  obtain ⟨op', hop', he'⟩ := ht.path hop
  rw [← he']
  unfold updateCmd at hop'
  split at hop'
  · cases hop'
  · cases hop'
  · rename_i he
    obtain ⟨q, hq⟩ := addObjectByPath_paths w env plain blank ls a fs id s op' hop'
    rw [hq]
    rintro rfl
    rcases hp with hp | hp
    · exact hp q rfl
    · obtain ⟨r, d, hd⟩ := (C94_exists_exact ls fs id true he).1 rfl
      rw [hp r] at hd
      cases hd

/-! ## C95: `update` changes the object with that id -/

/-- **C95, in full**: if `update` changes anything, the inventory in the folder it changes has the id given. -/
def C95_full : Prop := ∀ (w : World) (env : Env) (plain : Bool) (blank : Inv) (ls : List (Str → Res Str)) (a : CreateArgs) (fs : FS)
  (id : Str) (s : Session), KeepsId w → Reached w env plain blank ls (fun _ => True) fs →
  (updateCmd w env plain blank ls a fs id s).1 ≠ [] →
  ∃ b r, mget fs (under (rootPath ls id).1 rootInvPath) = some b ∧ w.dec b = some r ∧ r.inv.id = id

/-- **C95, the part that holds**: with a layout that keeps the ids in use apart, and with missing inventories reported. -/
theorem C95_update_own_partial {w : World} {env : Env} {blank : Inv} {ls : List (Str → Res Str)} {I : Str → Prop}
    (hid : KeepsId w) (hap : ∀ id id', I id → I id' → id ≠ id' → Apart (rootPath ls id).1 (rootPath ls id').1)
    {fs : FS} (h : Reached w env true blank ls I fs) {id : Str} (hI : I id) {a : CreateArgs} {s : Session}
    (hne : (updateCmd w env true blank ls a fs id s).1 ≠ []) :
    ∃ b r, mget fs (under (rootPath ls id).1 rootInvPath) = some b ∧ w.dec b = some r ∧ r.inv.id = id := by
  unfold updateCmd at hne
  split at hne
  · exact absurd rfl hne
  · exact absurd rfl hne
  · rename_i he
    unfold addObjectByPath at hne
    rw [he] at hne
    simp only at hne
    split at hne
    · exact absurd rfl hne
    · rename_i inv f hl
      obtain ⟨_, b, r, h1, h2, h3⟩ := loadByID_ok hl
      exact ⟨b, r, h1, h2, by rw [← h3]; exact C57_opens_own_partial hid hap h hI hl⟩

theorem life_load {w : World} {env : Env} {a : CreateArgs} {id : Str} {fs : FS} {N : Nat} {inv : Inv}
    (h : Life w env a id fs (N + 1) inv) : ∃ f, loadRoot w env fs = .ok (inv, f) := by
  cases h with
  | session fs N inv inv' s f h hs hl => exact ⟨f, hl⟩

theorem exStore_sub (ls : List (Str → Res Str)) (hl : (rootPath ls "a".toList).1 = "a".toList) :
    subFS (exStore ls "a".toList) "a".toList =
      applyOps (applyOps [] (initObject exArgs [] "a".toList).1) (session exKeep lifeInv0 (exSession "c/d".toList)).obj.trace := by
  unfold exStore createObject
  simp only [hl]
  rw [subFS_applyOps_lift, subFS_applyOps_lift]
  rfl

/-- the object of the example opens, under every id with its folder -/
theorem exStore_load (env : Env) (plain : Bool) (blank : Inv) (ls : List (Str → Res Str))
    (hl : (rootPath ls "a".toList).1 = "a".toList) (id : Str) (hid : rootPath ls id = ("a".toList, false)) :
    ∃ f, loadByID exKeep env plain blank ls (exStore ls "a".toList) id = .ok (lifeInv1, f) := by
  obtain ⟨f, hf⟩ := life_load (life_next (life_start env) exFirst_clean)
  rw [← exStore_sub ls hl] at hf
  obtain ⟨i, g, hg, _⟩ := exStore_opens env plain blank (ls := flatLayout) (Or.inr rfl) (by decide)
  refine ⟨f, ?_⟩
  have hs : subFS (exStore ls "a".toList) "a".toList = subFS (exStore flatLayout "a".toList) "a".toList := by
    rw [exStore_sub ls hl, exStore_sub flatLayout (by decide)]
  unfold loadByID at hg ⊢
  rw [hid]
  rw [if_neg (by decide)] at hg ⊢
  rw [show (rootPath flatLayout "a".toList).1 = "a".toList by decide] at hg
  unfold loadByFolder at hg ⊢
  rw [hs] at hf ⊢
  split at hg
  · rename_i v hv
    unfold loadInventory
    split
    · rename_i hm
      unfold loadRoot at hf
      rw [hm] at hf
      cases hf
    · exact hf
  · cases hg

theorem exStore_exists (ls : List (Str → Res Str)) (hl : (rootPath ls "a".toList).1 = "a".toList) (id : Str)
    (hid : rootPath ls id = ("a".toList, false)) : objectExists ls (exStore ls "a".toList) id = .ok true := by
  unfold objectExists
  rw [hid, if_neg (by decide), exStore_sub ls hl]
  rfl

theorem exUpdate (env : Env) (plain : Bool) (blank : Inv) (ls : List (Str → Res Str)) (hl : (rootPath ls "a".toList).1 = "a".toList)
    (id : Str) (hid : rootPath ls id = ("a".toList, false)) :
    updateCmd exKeep env plain blank ls exArgs (exStore ls "a".toList) id exSecond =
      inFolder "a".toList (session exKeep lifeInv1 exSecond) := by
  obtain ⟨f, hf⟩ := exStore_load env plain blank ls hl id hid
  unfold updateCmd addObjectByPath
  rw [exStore_exists ls hl id hid]
  simp only
  rw [hf, hid]

theorem exSecond_writes : (inFolder "a".toList (session exKeep lifeInv1 exSecond)).1 ≠ [] := by decide

/-- The commands on the example: adding `a` again does nothing, updating it writes a new version, updating `b` does nothing. -/
example (env : Env) (blank : Inv) (s : Session) :
    addCmd exKeep env true blank flatLayout exArgs (exStore flatLayout "a".toList) "a".toList s = ([], none) ∧
    (updateCmd exKeep env true blank flatLayout exArgs (exStore flatLayout "a".toList) "a".toList exSecond).1 ≠ [] ∧
    updateCmd exKeep env true blank flatLayout exArgs (exStore flatLayout "a".toList) "b".toList s = ([], none) := by
  refine ⟨?_, ?_, ?_⟩
  · unfold addCmd
    rw [exStore_exists flatLayout (by decide) _ (by decide)]
  · rw [exUpdate env true blank flatLayout (by decide) _ (by decide)]
    exact exSecond_writes
  · have : objectExists flatLayout (exStore flatLayout "a".toList) "b".toList = .ok false := by
      unfold objectExists
      rw [show rootPath flatLayout "b".toList = ("b".toList, false) by decide, if_neg (by decide)]
      rfl
    unfold updateCmd
    rw [this]

/-- the hypotheses of the theorems on `add` are met: `a` is added to an empty storage root -/
example (env : Env) (blank : Inv) :
    (addCmd exKeep env true blank flatLayout exArgs [] "a".toList (exSession "c/d".toList)).2 = none ∧
    (addCmd exKeep env true blank flatLayout exArgs [] "a".toList (exSession "c/d".toList)).1 ≠ [] := by
  have h1 : addCmd exKeep env true blank flatLayout exArgs [] "a".toList (exSession "c/d".toList) =
      ((createObject flatLayout exArgs [] "a".toList).1 ++ (inFolder "a".toList (session exKeep lifeInv0 (exSession "c/d".toList))).1,
        (inFolder "a".toList (session exKeep lifeInv0 (exSession "c/d".toList))).2) := by
    have h : objectExists flatLayout [] "a".toList = .ok false := rfl
    unfold addCmd addObjectByPath
    rw [h]
    simp only
    rw [exCreated flatLayout "a".toList]
    rfl
  rw [h1]
  exact ⟨by decide, by decide⟩

/-- **C95 is violated** with layout 0006: `x:a` and `a` share a folder; updating `x:a`, which was never added, writes a new
version of `a`. -/
theorem C95_full_fails : ¬ C95_full := by
  intro hf
  obtain ⟨b, r, h1, h2, h3⟩ := hf exKeep exEnv true (blankInv [] []) omitLayout exArgs (exStore omitLayout "a".toList) "x:a".toList
    exSecond exKeep_keepsId (exStore_reached _ _ _ _ _ _ trivial)
    (by rw [exUpdate exEnv true _ omitLayout (by decide) _ (by decide)]; exact exSecond_writes)
  obtain ⟨f, hf⟩ := exStore_load exEnv true (blankInv [] []) omitLayout (by decide) "x:a".toList (by decide)
  obtain ⟨_, b', r', h4, h5, h6⟩ := loadByID_ok hf
  rw [h1] at h4
  cases h4
  rw [h2] at h5
  cases h5
  rw [h3] at h6
  exact absurd h6 (by decide)

/-- different folders of equal length are apart -/
theorem apart_of_length {f g : Str} (hl : f.length = g.length) (hne : f ≠ g) : Apart f g := by
  refine ⟨hne, ?_, ?_⟩
  · rintro r rfl; simp [under] at hl
  · rintro r rfl; simp [under] at hl

/-- the hypotheses of the theorem on C95 are met, with the flat layout and the ids `a` and `b` -/
example (env : Env) (blank : Inv) : ∃ b r, mget (exStore flatLayout "a".toList) (under "a".toList rootInvPath) = some b ∧
    exKeep.dec b = some r ∧ r.inv.id = "a".toList :=
  C95_update_own_partial (ls := flatLayout) (I := fun id => id = "a".toList ∨ id = "b".toList) (a := exArgs) (s := exSecond)
    (env := env) (blank := blank) exKeep_keepsId (by
      rintro id id' (rfl | rfl) (rfl | rfl) hne
      · exact absurd rfl hne
      · exact apart_of_length (by decide) (by decide)
      · exact apart_of_length (by decide) (by decide)
      · exact absurd rfl hne)
    (exStore_reached _ _ _ _ _ _ (Or.inl rfl)) (Or.inl rfl)
    (by rw [exUpdate env true blank flatLayout (by decide) _ (by decide)]; exact exSecond_writes)

end Gocfl
