import Verif.Go.Strings

/-!
# Model of the enumeration of objects (`pkg/ocfl/storagerootbase.go:241-327`)

Paths are lists of names (`filepath.Join` of names without slashes that are not dots).  Reading directories does not
fail.
-/

namespace Gocfl

/-- a directory: its entries in the order of `fs.ReadDir` -/
inductive FDir where
  | nil
  | file (name : Str) (rest : FDir)
  | dir (name : Str) (sub rest : FDir)
  deriving DecidableEq, Repr

def isDotName (n : Str) : Bool := decide (n = ".".toList) || decide (n = "..".toList)

/-- pkg/ocfl/storagerootbase.go:285-311, the closure `recurse` -/
def recurseObjects (base : List Str) : FDir → List (List Str)
  | .nil => []
  | .file n rest => if isDotName n then recurseObjects base rest else [base]
  | .dir n sub rest => recurseObjects (base ++ [n]) sub ++ recurseObjects base rest

/-- pkg/ocfl/storagerootbase.go:312-326 (with `GetFolders`, 241-254): the top level -/
def getObjectFolders : FDir → List (List Str)
  | .nil => []
  | .file _ rest => getObjectFolders rest
  | .dir n sub rest =>
    (if isDotName n || decide (n = "extensions".toList) then [] else recurseObjects [n] sub) ++ getObjectFolders rest

/-! ## Specification -/

/-- the sub directories -/
def FDir.dirs : FDir → List (Str × FDir)
  | .nil => []
  | .file _ rest => rest.dirs
  | .dir n sub rest => (n, sub) :: rest.dirs

/-- the names of the files -/
def FDir.files : FDir → List Str
  | .nil => []
  | .file n rest => n :: rest.files
  | .dir _ _ rest => rest.files

/-- following the path leads from the first to the second directory -/
inductive Reach : FDir → List Str → FDir → Prop
  | here (d : FDir) : Reach d [] d
  | step {d sub x : FDir} {n : Str} {p : List Str} (h : (n, sub) ∈ d.dirs) (t : Reach sub p x) : Reach d (n :: p) x

/-- an object folder carries an object declaration -/
def IsObjectDir (d : FDir) : Prop := ∃ n ∈ d.files, hasPrefix n "0=ocfl_object_".toList = true

/-- the folder of an object of the storage root (the folder `extensions` of the root is not part of the hierarchy) -/
def IsObjectFolder (root : FDir) (p : List Str) : Prop :=
  ∃ x, Reach root p x ∧ IsObjectDir x ∧ p ≠ [] ∧ p.head? ≠ some "extensions".toList

/-- directory entries have different names that are not dots, everywhere in the tree -/
def GoodNames (d : FDir) : Prop :=
  ∀ p x, Reach d p x → ((x.dirs.map (·.1)) ++ x.files).Nodup ∧ ∀ n ∈ (x.dirs.map (·.1)) ++ x.files, isDotName n = false

/-- no object inside an object -/
def NoNesting (d : FDir) : Prop :=
  ∀ p x q y, Reach d p x → IsObjectDir x → Reach x q y → IsObjectDir y → q = []

end Gocfl
