import Verif.Model.RootCheck
import Verif.Model.Metadata

/-!
# Model of commands for one object: `validate`, `extract` and `extractmeta` with `--object-id` or `--object-path`

`gocfl/cmd/validate.go:116-146`, `CheckObjectByFolder` and `CheckObjectByID` (pkg/ocfl/storagerootbase.go:472-506), `ExtractMeta`
and `Extract` (612-694).

Simplification: a path given with `--object-path` is the name of a folder as the storage root lists it (no `..`, no slash at its end).
-/

namespace Gocfl

/-- the version of a storage root that was loaded (pkg/ocfl/storagerootbase.go:150-174); it is what it is while one object is
checked, because `CheckDirectory` is not run -/
def loadedVersion (fs : FS) : Str :=
  match getVersion rootDecl (topFiles fs) with
  | .version v => v
  | _ => "1.0".toList

/-- pkg/ocfl/storagerootbase.go:331-335 and 362-379: what `LoadObjectByFolder` reports about the versions -/
def oneVersionFnd (w : World) (env : Env) (plain : Bool) (blank : Inv) (fs : FS) (folder : Str) : List Fnd :=
  match getVersion objDecl (topFiles (subFS fs folder)) with
  | .version v =>
    match loadByFolder w env plain blank fs folder with
    | .ok _ => if decLt (loadedVersion fs) v then [err 0 [loadedVersion fs, v]] else []
    | .error _ => []
  | .none => [err 3 [folder]]
  | _ => []

/-- pkg/ocfl/storagerootbase.go:472-487 `CheckObjectByFolder` and 489-504 `CheckObjectByID`, which differ in the name shown -/
def checkNamed (w : World) (env : Env) (plain : Bool) (blank : Inv) (fs : FS) (folder name : Str) : Res (List Fnd) :=
  match loadByFolder w env plain blank fs folder with
  | .error (.panic m) => .error (.panic m)
  | .error (.error _) => .ok (oneVersionFnd w env plain blank fs folder ++ [err 1 [name]])
  | .ok (inv, f) =>
    if mget (subFS fs folder) rootInvPath = none then .error (.panic "nil dereference: manifest")
    else checkObject w env plain (subFS fs folder) inv >>= fun g => .ok (oneVersionFnd w env plain blank fs folder ++ (f ++ g))

/-- pkg/ocfl/storagerootbase.go:489-504 `CheckObjectByID`; a layout that has no folder for the id is a finding, too -/
def checkByID (w : World) (env : Env) (plain : Bool) (blank : Inv) (ls : List (Str → Res Str)) (fs : FS) (id : Str) : Res (List Fnd) :=
  if (rootPath ls id).2 then .ok [err 1 [id]] else checkNamed w env plain blank fs (rootPath ls id).1 id

/-- gocfl/cmd/validate.go:116-146: the findings shown; an error means that none are shown (the program ends with exit status 0,
unless it is a panic) -/
def validateCmd (w : World) (env : Env) (plain : Bool) (blank : Inv) (ls : List (Str → Res Str)) (fs : FS) (t : FDir) (id path : Str) :
    Res (List Fnd) :=
  if id = [] ∧ path = [] then validateRoot w env plain blank fs t
  else
    loadRootFnd fs >>= fun a =>
    if id ≠ [] ∧ path ≠ [] then .error (.error "do not use object-path AND object-id at the same time")
    else (if id ≠ [] then checkByID w env plain blank ls fs id else checkNamed w env plain blank fs path path) >>= fun b => .ok (a ++ b)

/-- pkg/ocfl/storagerootbase.go:633-640, 676-683: the object asked for and its folder -/
def oneObjectOf (w : World) (env : Env) (plain : Bool) (blank : Inv) (ls : List (Str → Res Str)) (fs : FS) (path id : Str) :
    Res (Str × Inv) :=
  if path ≠ [] then loadByFolder w env plain blank fs path >>= fun r => .ok (path, r.1)
  else loadByID w env plain blank ls fs id >>= fun r => .ok ((rootPath ls id).1, r.1)

/-- pkg/ocfl/storagerootbase.go:612-652 `ExtractMeta` -/
def extractMetaOf {V : Type} (w : World) (env : Env) (plain : Bool) (blank : Inv) (ls : List (Str → Res Str)) (fs : FS) (t : FDir)
    (exts : Str → Inv → List (Str × Res (AMap Str V))) (path id : Str) : Res (AMap Str (ObjMeta V)) :=
  if path = [] ∧ id = [] then extractMeta w env plain blank fs t exts
  else
    oneObjectOf w env plain blank ls fs path id >>= fun o =>
    objMetadata o.2 (exts o.1 o.2) >>= fun m => .ok (mset [] o.2.id m)

/-- pkg/ocfl/storagerootbase.go:654-694 `Extract`: the writes to the target, and the error -/
def extractOf (w : World) (env : Env) (plain : Bool) (blank : Inv) (ls : List (Str → Res Str)) (fs : FS) (t : FDir)
    (xp : Str → Str → ExtractPath) (v : Str) (withManifest : Bool) (area path id : Str) : List FsOp × Option GoErr :=
  if path = [] ∧ id = [] then extractRoot w env plain blank fs t xp v withManifest area
  else
    match oneObjectOf w env plain blank ls fs path id with
    | .error e => ([], some e)
    | .ok o =>
      let x := extract w o.2 (subFS fs o.1) (xp o.1 area) (if v = [] then "latest".toList else v) withManifest
      (x.trace, x.err)

end Gocfl
