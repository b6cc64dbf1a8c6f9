import Verif.Model.ObjCheck
import Verif.Model.Enumerate

/-!
# Model of the validation of a storage root

`gocfl/cmd/validate.go` with `LoadStorageRoot` (pkg/ocfl/storageroot.go:97-131), `StorageRootBase.Load`
(pkg/ocfl/storagerootbase.go:145-187) and `StorageRootBase.Check` (419-471, 508-519).

A storage root is given twice: the files with their contents (`FS`), and the directories as `fs.ReadDir` lists them
(`FDir`).  `TreeOf` says that both are the same.  The extensions of the storage root are left out (they are created, and
do not take part in the validation).
-/

namespace Gocfl

/-- the declaration of a storage root -/
def rootDecl : Str := "ocfl_".toList

/-- pkg/ocfl/storageroot.go:44-68 `newStorageRoot`: the versions there are types for -/
def supportedRoot (v : Str) : Bool :=
  decide (v = "1.0".toList) || decide (v = "1.1".toList) || decide (v = "2.0".toList)

/-- pkg/ocfl/storageroot.go:97-131 `LoadStorageRoot`, with pkg/ocfl/storagerootbase.go:145-187 `Load`: findings.  A
declaration that is ambiguous or has the wrong content is an error of loading. -/
def loadRootFnd (fs : FS) : Res (List Fnd) :=
  match getVersion rootDecl (topFiles fs) with
  | .version v => if supportedRoot v then .ok [] else .error (.error "storage root version not supported")
  | .none => .ok ((if fs = [] then [] else [err 69 []]) ++ [err 3 [], err 4 [], err 5 []])
  | _ => .error (.error "cannot get version")

/-- pkg/ocfl/storagerootbase.go:433-471 `CheckDirectory`: the names of the files are enough -/
def rootDirFnd (fs : FS) : List Fnd :=
  match (topFiles fs).filterMap (fun e => declExact rootDecl e.name) with
  | [] => [err 76 [], err 77 []]
  | _ :: more => more.map (fun v => err 76 [v])

/-- the path of a folder -/
def folderPath (p : List Str) : Str := joinWith '/' p

/-- the digits of a version number without its dot, and how many of them follow the dot -/
def decVal (v : Str) : Nat × Nat :=
  (digitsVal (v.filter Char.isDigit), ((v.dropWhile Char.isDigit).drop 1).length)

/-- `x < y` for the numbers `strconv.ParseFloat` reads.  Simplification: exact, where `float64` rounds numbers with more
than 15 digits. -/
def decLt (x y : Str) : Bool :=
  decide ((decVal x).1 * 10 ^ (decVal y).2 < (decVal y).1 * 10 ^ (decVal x).2)

/-- the version of the storage root while objects are checked (pkg/ocfl/storagerootbase.go:467 after 145-187): the first
declaration by name, else the version it was loaded as -/
def rootVersion (fs : FS) : Str :=
  match (topFiles fs).filterMap (fun e => declExact rootDecl e.name) with
  | v :: _ => v
  | [] =>
    match getVersion rootDecl (topFiles fs) with
    | .version v => v
    | _ => "1.0".toList

/-- pkg/ocfl/storagerootbase.go:331-335 and 362-379: what `LoadObjectByFolder` reports about the versions -/
def objVersionFnd (w : World) (env : Env) (plain : Bool) (blank : Inv) (fs : FS) (folder : Str) : List Fnd :=
  match getVersion objDecl (topFiles (subFS fs folder)) with
  | .version v =>
    match loadByFolder w env plain blank fs folder with
    | .ok _ => if decLt (rootVersion fs) v then [err 0 [rootVersion fs, v]] else []
    | .error _ => []
  | .none => [err 3 [folder]]
  | _ => []

/-- pkg/ocfl/storagerootbase.go:472-487 `CheckObjectByFolder` -/
def checkRootFolder (w : World) (env : Env) (plain : Bool) (blank : Inv) (fs : FS) (folder : Str) : Res (List Fnd) :=
  checkFolder w env plain blank fs folder >>= fun g => .ok (objVersionFnd w env plain blank fs folder ++ g)

/-- pkg/ocfl/storagerootbase.go:508-519 `CheckObjects`: an object whose check fails stops it -/
def checkObjects (w : World) (env : Env) (plain : Bool) (blank : Inv) (fs : FS) (ps : List (List Str)) : Res (List Fnd) :=
  collect (fun p => checkRootFolder w env plain blank fs (folderPath p)) ps

/-- gocfl/cmd/validate.go:110-130: validation of a whole storage root.  An error means that no findings are shown
(`showStatus` is not reached). -/
def validateRoot (w : World) (env : Env) (plain : Bool) (blank : Inv) (fs : FS) (t : FDir) : Res (List Fnd) :=
  loadRootFnd fs >>= fun a =>
  checkObjects w env plain blank fs (getObjectFolders t) >>= fun b => .ok (a ++ (rootDirFnd fs ++ b))

/-! ## Specification -/

/-- The tree has the files of the file system. -/
structure TreeOf (t : FDir) (fs : FS) : Prop where
  names : ∀ p x, Reach t p x → (∀ c ∈ p, '/' ∉ c ∧ c ≠ []) ∧ ∀ n ∈ x.files, '/' ∉ n ∧ n ≠ []
  files : ∀ p n, (∀ c ∈ p ++ [n], '/' ∉ c) →
    ((∃ x, Reach t p x ∧ n ∈ x.files) ↔ ∃ b, mget fs (folderPath (p ++ [n])) = some b)

end Gocfl
