import Verif.Model.CmdLine
import Verif.Model.RootInit
import Verif.Model.Settings

/-!
# Model of the command `create`, and of what `create`, `add` and `update` take from the settings
(`gocfl/cmd/create.go:115-261`, `add.go:200-308`, `update.go:156-281`)

Simplifications: those of the modules used; the steps between the settings and the first folder (indexer, migrations,
thumbnails, extension factory) succeed.  What extensions do during a session (`hooks`) is given.
-/

namespace Gocfl

variable {β : Type}

/-- gocfl/cmd/create.go:170-173 (add.go:218-221, update.go:175-178): the area of the source folder -/
def sourceArea (k : Conf) : Str := if k.str .defaultArea = [] then "content".toList else k.str .defaultArea

/-- gocfl/cmd/create.go:245-257, add.go:288-301, update.go:259-272: message, user and address of the new version -/
def sessionInfo (c : Command) (k : Conf) (now : Str) : VInfo :=
  match c with
  | .update => ⟨k.str .updMessage, k.str .updUserName, k.str .updUserAddress, now⟩
  | _ => ⟨k.str .addMessage, k.str .addUserName, k.str .addUserAddress, now⟩

/-- the same places: deduplication and echo -/
def sessionDup (c : Command) (k : Conf) : Bool :=
  match c with
  | .update => k.on .updDeduplicate
  | _ => k.on .addDeduplicate

def sessionEcho (c : Command) (k : Conf) : Bool :=
  match c with
  | .update => k.on .updEcho
  | _ => false

/-- The command line as the three commands use it: `id` and `src` and the further arguments, the time, and what the
extensions of the object do. -/
def cmdLineOf (c : Command) (k : Conf) (id src : Str) (args : List Str) (now : Str) (hooks : Session) : CmdLine :=
  { id := id
    area := sourceArea k
    src := src
    args := args
    dup := sessionDup c k
    rest := { hooks with info := sessionInfo c k now, echo := sessionEcho c k } }

/-- gocfl/cmd/create.go:226-250 with pkg/ocfl/storagerootbase.go:391-413: version and digest algorithm are those of the new
storage root -/
def createArgsOf (k : Conf) (spec contentDir : Str) (allowed : List Str) : CreateArgs :=
  { version := k.str .initVersion
    spec := spec
    alg := k.str .initDigest
    fixity := fixityAlgs k
    allowed := allowed
    contentDir := contentDir }

/-- What a storage root is created with. -/
structure NewRoot (β : Type) where
  T : CfgText β
  folders : Bool
  init : InitArgs β
  mgr : ExtMgr β
  layouts : List (Ext β)

/-- gocfl/cmd/create.go:226-234: the storage root is made with the version set; `docs`, `announce`, extensions and layouts are those
of the extension folder named in the settings -/
def newRootOf (k : Conf) (T : CfgText β) (folders : Bool) (docs : List (Str × Bytes)) (announce : Ext β → Bytes) (mgr : ExtMgr β)
    (layouts : List (Ext β)) : NewRoot β :=
  { T := T, folders := folders, init := ⟨k.str .initVersion, docs, announce⟩, mgr := mgr, layouts := layouts }

/-- gocfl/cmd/create.go:115-261 `doCreate`: every error from here on is a panic; nothing is undone -/
def createRun (w : World) (env : Env) (plain : Bool) (blank : Inv) (ls : List (Str → Res Str)) (n : NewRoot β) (a : CreateArgs)
    (u : Surroundings) (c : CmdLine) (s : RootDisk) : RootDisk × Finish :=
  match openFolders u c with
  | .error _ => (s, ⟨false, none⟩)
  | .ok files =>
    let r := initRoot n.T n.folders n.init n.mgr n.layouts s
    match r.2 with
    | some _ => (r.1, ⟨false, none⟩)
    | none =>
      let x := addObjectByPath w env plain blank ls a r.1.fs c.id (c.session files)
      let s' : RootDisk := ⟨applyOps r.1.fs x.1, r.1.made⟩
      match x.2 with
      | some _ => (s', ⟨false, none⟩)
      | none => (s', ⟨u.closes, some u.found⟩)

end Gocfl
