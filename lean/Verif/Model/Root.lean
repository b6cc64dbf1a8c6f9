import Verif.Model.Load
import Verif.Model.Declaration

/-!
# Model of the objects of a storage root
(`pkg/ocfl/storagerootbase.go:260-413`, `pkg/ocfl/objectbase.go:425-503`)

The storage root's file system is a map from paths to contents, an object is the part of it below its folder.
Simplifications: a folder is a non-empty clean relative path; an extension of the object that cannot be loaded is not
modelled; reading an existing file works.
-/

namespace Gocfl

/-- pkg/extension/NNNN-gocfl-extension-manager.go:321-334 `BuildStorageRootPath`: the folder, and whether some layout
extension failed.  The folder is returned together with the error. -/
def rootPath : List (Str → Res Str) → Str → Str × Bool
  | [], id => (id, false)
  | l :: ls, id =>
    match l id with
    | .error _ => ((rootPath ls id).1, true)
    | .ok p => rootPath ls (if p = [] then id else p)

/-- the path of a file of the object in `folder` -/
def under (folder p : Str) : Str := folder ++ '/' :: p

/-- the rest of a path below `folder` -/
def stripFolder (folder p : Str) : Option Str :=
  if (folder ++ ['/']).isPrefixOf p then some (p.drop (folder.length + 1)) else none

/-- `fs.Sub(fsys, folder)` -/
def subFS (fs : FS) (folder : Str) : FS :=
  fs.filterMap (fun e => (stripFolder folder e.1).map (fun r => (r, e.2)))

/-- the files directly in a folder, as `fs.ReadDir` lists them.  Simplification: the order of the map; the folders
are left out, `getVersion` skips them. -/
def topFiles (fs : FS) : List DirEnt :=
  fs.filterMap (fun e => if '/' ∈ e.1 then none else some ⟨e.1, false, some (bytesStr e.2)⟩)

def objDecl : Str := "ocfl_object_".toList

/-- pkg/ocfl/objectbase.go:428-429: the name of the declaration file -/
def declName (ver : Str) : Str := "0=".toList ++ (objDecl ++ ver)

/-- pkg/ocfl/storagerootbase.go:260-280 `ObjectExists` -/
def objectExists (ls : List (Str → Res Str)) (fs : FS) (id : Str) : Res Bool :=
  if (rootPath ls id).2 then .error (.error "cannot build storage path")
  else .ok (decide (subFS fs (rootPath ls id).1 ≠ []))

/-- What `CreateObject` is called with: OCFL version and inventory type, digest algorithm, fixity algorithms, those the
object's extensions allow, and the content directory of new inventories. -/
structure CreateArgs where
  version : Str
  spec : Str
  alg : Str
  fixity : List Str
  allowed : List Str
  contentDir : Str

/-- pkg/ocfl/objectbase.go:425-482 `Init`, in the object's folder: the changes it makes, and the new inventory or an
error -/
def initObject (a : CreateArgs) (ofs : FS) (id : Str) : List FsOp × Res Inv :=
  if mget ofs (declName a.version) ≠ none then ([], .error (.error "already exists"))
  else if ofs ≠ [] then ([], .error (.error "is not empty"))
  else
    (writeFile (declName a.version) (asBytes (objDecl ++ a.version ++ "\n".toList)),
      if a.fixity.all (fun x => x ∈ a.allowed) then .ok (newInv id a.spec a.alg a.contentDir a.fixity)
      else .error (.error "forbidden digest algorithm for fixity"))

/-- the changes of an object as changes of the storage root -/
def FsOp.lift (folder : Str) : FsOp → FsOp
  | .create p => .create (under folder p)
  | .append p b => .append (under folder p) b

/-- pkg/ocfl/storagerootbase.go:391-413 `CreateObject`: the changes it makes, and the folder and the new inventory, or
an error.  The error of the layout is overwritten by the next assignment. -/
def createObject (ls : List (Str → Res Str)) (a : CreateArgs) (fs : FS) (id : Str) : List FsOp × Res (Str × Inv) :=
  let folder := (rootPath ls id).1
  let r := initObject a (subFS fs folder) id
  (r.1.map (FsOp.lift folder), r.2 >>= fun inv =>
    if id ≠ [] ∧ inv.id ≠ id then .error (.error "id mismatch") else .ok (folder, inv))

/-- pkg/ocfl/objectbase.go:285-334 `LoadInventory`: an inventory file that cannot be read is an error only if the
underlying error is `fs.ErrNotExist` itself (`plain`); otherwise an empty inventory is made up (pkg/ocfl/
inventorybase.go:39-56).  On a local disk the underlying error is `syscall.ENOENT`. -/
def loadInventory (w : World) (env : Env) (plain : Bool) (blank : Inv) (ofs : FS) : Res (Inv × List Fnd) :=
  match mget ofs rootInvPath with
  | none => if plain then .error (.error "inventory.json does not exist") else .ok (blank, [])
  | some _ => loadRoot w env ofs

/-- pkg/ocfl/inventorybase.go:39-56 `newInventoryBase` -/
def blankInv (spec contentDir : Str) : Inv := newInv [] spec [] contentDir []

/-- pkg/ocfl/storagerootbase.go:329-381 `LoadObjectByFolder` (the findings about the root's version left out) -/
def loadByFolder (w : World) (env : Env) (plain : Bool) (blank : Inv) (fs : FS) (folder : Str) :
    Res (Inv × List Fnd) :=
  match getVersion objDecl (topFiles (subFS fs folder)) with
  | .version _ => loadInventory w env plain blank (subFS fs folder)
  | _ => .error (.error "cannot get version")

/-- pkg/ocfl/storagerootbase.go:383-389 `LoadObjectByID` -/
def loadByID (w : World) (env : Env) (plain : Bool) (blank : Inv) (ls : List (Str → Res Str)) (fs : FS) (id : Str) :
    Res (Inv × List Fnd) :=
  if (rootPath ls id).2 then .error (.error "cannot create folder from id")
  else loadByFolder w env plain blank fs (rootPath ls id).1

/-! ## The file system below a folder -/

theorem stripFolder_eq_some {f p r : Str} : stripFolder f p = some r ↔ p = under f r := by
  unfold stripFolder under
  constructor
  · intro h
    split at h
    · rename_i hp
      obtain ⟨t, ht⟩ := List.isPrefixOf_iff_prefix.1 hp
      cases h
      rw [← ht]
      have : (f ++ ['/'] ++ t).drop (f.length + 1) = t := by
        rw [List.drop_append_of_le_length (by simp), List.drop_of_length_le (by simp)]; rfl
      rw [this]; simp
    · cases h
  · rintro rfl
    rw [if_pos (List.isPrefixOf_iff_prefix.2 ⟨r, by simp⟩)]
    congr 1
    rw [show f ++ '/' :: r = (f ++ ['/']) ++ r by simp, List.drop_append_of_le_length (by simp),
      List.drop_of_length_le (by simp)]
    rfl

theorem under_inj {f p q : Str} : under f p = under f q ↔ p = q := by
  unfold under; simp

/-- a file of the object -/
theorem mget_subFS (fs : FS) (f p : Str) : mget (subFS fs f) p = mget fs (under f p) := by
  induction fs with
  | nil => rfl
  | cons e fs ih =>
    obtain ⟨k, v⟩ := e
    unfold subFS at ih ⊢
    rw [List.filterMap_cons]
    cases hs : stripFolder f k with
    | none =>
      simp only [Option.map_none]
      rw [ih]
      have : k ≠ under f p := by
        intro hk
        rw [stripFolder_eq_some.2 hk] at hs; cases hs
      simp [mget, this]
    | some r =>
      simp only [Option.map_some]
      have hk := stripFolder_eq_some.1 hs
      subst hk
      by_cases h : r = p
      · subst h; simp [mget]
      · have h2 : under f r ≠ under f p := fun h3 => h (under_inj.1 h3)
        simp only [mget, h, h2, if_false]
        exact ih

/-- Two folders, none inside the other. -/
def Apart (f g : Str) : Prop := f ≠ g ∧ (∀ r, f ≠ under g r) ∧ ∀ r, g ≠ under f r

theorem under_apart {f g : Str} (h : Apart f g) (p q : Str) : under f p ≠ under g q := by
  intro he
  unfold under at he
  rcases List.append_eq_append_iff.1 he with ⟨a, h1, h2⟩ | ⟨a, h1, h2⟩
  · cases a with
    | nil => exact h.1 (by simpa using h1.symm)
    | cons c a =>
      rw [List.cons_append] at h2
      injection h2 with h3 h4
      subst h3
      exact h.2.2 a h1
  · cases a with
    | nil => exact h.1 (by simpa using h1)
    | cons c a =>
      rw [List.cons_append] at h2
      injection h2 with h3 h4
      subst h3
      exact h.2.1 a h1

theorem lift_path (f : Str) (op : FsOp) : (op.lift f).path = under f op.path := by cases op <;> rfl

theorem mget_lift_under (f : Str) (t : List FsOp) (fs ofs : FS) (p : Str)
    (h : ∀ q, mget ofs q = mget fs (under f q)) :
    mget (applyOps fs (t.map (FsOp.lift f))) (under f p) = mget (applyOps ofs t) p := by
  induction t generalizing fs ofs with
  | nil => exact (h p).symm
  | cons op t ih =>
    rw [List.map_cons, applyOps_cons, applyOps_cons]
    apply ih
    intro q
    cases op with
    | create x =>
      by_cases hq : x = q
      · subst hq; simp [FsOp.lift, FsOp.apply]
      · have hu : under f x ≠ under f q := fun h3 => hq (under_inj.1 h3)
        simp only [FsOp.lift, FsOp.apply]
        rw [mget_mset_ne _ hq, mget_mset_ne _ hu, h q]
    | append x b =>
      by_cases hq : x = q
      · subst hq; simp [FsOp.lift, FsOp.apply, h x]
      · have hu : under f x ≠ under f q := fun h3 => hq (under_inj.1 h3)
        simp only [FsOp.lift, FsOp.apply]
        rw [mget_mset_ne _ hq, mget_mset_ne _ hu, h q]

theorem mget_lift_apart {f g : Str} (h : Apart f g) (t : List FsOp) (fs : FS) (p : Str) :
    mget (applyOps fs (t.map (FsOp.lift f))) (under g p) = mget fs (under g p) := by
  apply mget_applyOps_ne
  intro op hop
  obtain ⟨o, _, rfl⟩ := List.mem_map.1 hop
  rw [lift_path]
  exact under_apart h _ _

/-- changes of the object in a folder, seen from the object -/
theorem mget_subFS_lift (fs : FS) (f : Str) (t : List FsOp) (p : Str) :
    mget (subFS (applyOps fs (t.map (FsOp.lift f))) f) p = mget (applyOps (subFS fs f) t) p := by
  rw [mget_subFS]
  exact mget_lift_under f t fs (subFS fs f) p (fun q => mget_subFS fs f q)

end Gocfl
