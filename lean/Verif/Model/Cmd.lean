import Verif.Model.Root
import Verif.Model.Session

/-!
# Model of the commands `add` and `update`
(`gocfl/cmd/add.go:255-308`, `gocfl/cmd/update.go:236-281`, `gocfl/cmd/helper.go:305-361`)

The result is the list of changes to the storage root and the error.  Simplifications: flags and configuration are read,
the storage root is loaded and its digest is the configured one; what the folders to add contain is the body of the session.
-/

namespace Gocfl

/-- the changes of a session of the object in `folder` -/
def inFolder (folder : Str) (r : Out) : List FsOp × Option GoErr := (r.obj.trace.map (FsOp.lift folder), r.err)

/-- gocfl/cmd/helper.go:305-361 `addObjectByPath` -/
def addObjectByPath (w : World) (env : Env) (plain : Bool) (blank : Inv) (ls : List (Str → Res Str)) (a : CreateArgs) (fs : FS)
    (id : Str) (s : Session) : List FsOp × Option GoErr :=
  match objectExists ls fs id with
  | .error e => ([], some e)
  | .ok true =>
    match loadByID w env plain blank ls fs id with
    | .error e => ([], some e)
    | .ok (inv, _) => inFolder (rootPath ls id).1 (session w inv s)
  | .ok false =>
    match (createObject ls a fs id).2 with
    | .error e => ((createObject ls a fs id).1, some e)
    | .ok (folder, inv) =>
      let r := inFolder folder (session w inv s)
      ((createObject ls a fs id).1 ++ r.1, r.2)

/-- gocfl/cmd/add.go:278-304 `doAdd` -/
def addCmd (w : World) (env : Env) (plain : Bool) (blank : Inv) (ls : List (Str → Res Str)) (a : CreateArgs) (fs : FS)
    (id : Str) (s : Session) : List FsOp × Option GoErr :=
  match objectExists ls fs id with
  | .error e => ([], some e)
  | .ok true => ([], none)
  | .ok false => addObjectByPath w env plain blank ls a fs id s

/-- gocfl/cmd/update.go:249-280 `doUpdate` -/
def updateCmd (w : World) (env : Env) (plain : Bool) (blank : Inv) (ls : List (Str → Res Str)) (a : CreateArgs) (fs : FS)
    (id : Str) (s : Session) : List FsOp × Option GoErr :=
  match objectExists ls fs id with
  | .error e => ([], some e)
  | .ok false => ([], none)
  | .ok true => addObjectByPath w env plain blank ls a fs id s

end Gocfl
