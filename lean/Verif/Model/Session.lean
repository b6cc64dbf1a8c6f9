import Verif.Model.FS
import Verif.Model.ContentPath
import Verif.Model.Echo
import Verif.Model.Validate

/-!
# Model of update sessions (`pkg/ocfl/objectbase.go`)

What the session writes is recorded as a trace of file system changes, so that a crash is a prefix of it.
Extension hooks may call the object's methods; a session therefore carries, for every hook point, an arbitrary
list of calls (an over-approximation of every possible extension).
-/

namespace Gocfl

/-- What the session depends on outside the object: `enc`/`dec` — `json.MarshalIndent` of an inventory and
the two `json.Unmarshal` of `loadInventory` (`none`: the first one fails or there is no `type`); `hash` —
`checksum.GetHash` with `%x` formatting (`none`: unknown algorithm); `statePath`, `manifestPath` — the
extension manager's `BuildObjectStatePath` and `BuildObjectManifestPath` of (path, area); `time` — what is left
of a time stamp after it is written (`time.RFC3339`, whole seconds, pkg/ocfl/inventorytypes.go:76-78) and read. -/
structure World where
  enc : Inv → Bytes
  dec : Bytes → Option RawInv
  hash : Str → Option (Bytes → Str)
  statePath : Str → Str → Res Str
  manifestPath : Str → Str → Res Str
  time : Str → Str

/-- pkg/ocfl/objectbase.go:34-50 `ObjectBase`: the parts a session changes, and the changes made to the
object's directory. -/
structure Obj where
  inv : Inv
  updateFiles : List Str
  echo : Bool
  trace : List FsOp

/-- The object after an operation, and the error it returned (or panic).  After an error the changes made so
far stay. -/
structure Out where
  obj : Obj
  err : Option GoErr

def Out.andThen (x : Out) (f : Obj → Out) : Out :=
  match x.err with
  | none => f x.obj
  | some _ => x

def ok (o : Obj) : Out := ⟨o, none⟩
def fail (o : Obj) (msg : String) : Out := ⟨o, some (.error msg)⟩

/-- continue with the result of an inventory operation -/
def withInv (o : Obj) (r : Res Inv) : Out :=
  match r with
  | .ok i => ⟨{ o with inv := i }, none⟩
  | .error e => ⟨o, some e⟩

/-- the writes `t` happen -/
def Obj.write (o : Obj) (t : List FsOp) : Obj := { o with trace := o.trace ++ t }

/-- pkg/ocfl/objectbase.go:648,655-657: the algorithms computed for every file written -/
def digestAlgs (inv : Inv) : List Str :=
  if inv.digestAlg ∈ inv.fixityAlgs then inv.fixityAlgs else inv.fixityAlgs ++ [inv.digestAlg]

/-- the checksums `checksum.Copy` returns (`none`: an algorithm is unknown) -/
def checksums (w : World) (algs : List Str) (data : Bytes) : Option (AMap Str Str) :=
  algs.mapM (fun a => (w.hash a).map (fun h => (a, h data)))

/-- pkg/ocfl/objectbase.go:646-711 `addReader`.  Simplifications: an unknown algorithm leaves the created file
empty; the pipe to the extensions is modelled in `Verif/Model/Stream.lean`. -/
def addReader (w : World) (o : Obj) (names : List Str) (mp : Str) (data : Bytes) : Out :=
  let o1 : Obj := { o with updateFiles := o.updateFiles ++ names }
  match checksums w (digestAlgs o.inv) data with
  | none => ⟨o1.write [.create mp], some (.error "cannot copy")⟩
  | some cs => withInv (o1.write (writeFile mp data)) (addFile o.inv names mp cs)

/-- pkg/ocfl/objectbase.go:713-734 `BuildNames`: the logical paths of the names and the content path -/
def buildNames (w : World) (inv : Inv) (files : List Str) (area : Str) : Res (List Str × Str) :=
  files.mapM (fun f => w.statePath f area) >>= fun names =>
  w.manifestPath (files.headD []) area >>= fun internal =>
  .ok (names, buildManifestName inv internal)

/-- pkg/ocfl/objectbase.go:882-917 and 793-818: the file is known already under this name (nothing to do),
known under another name (virtual copy), or has to be stored -/
def addChecked (w : World) (o : Obj) (names : List Str) (mp newPath digest : Str) (data : Bytes) : Out :=
  match alreadyExists o.inv newPath digest with
  | .error e => ⟨o, some e⟩
  | .ok true => ok o
  | .ok false =>
    if getDuplicates o.inv digest ≠ [] then withInv o (copyFile o.inv newPath digest)
    else addReader w o names mp data

/-- pkg/ocfl/objectbase.go:853-950 `AddFile` of a regular file with content `data`, and 773-851 `AddData`
(same steps).  A directory (`isDir`) only triggers hooks. -/
def objAdd (w : World) (o : Obj) (path area : Str) (data : Bytes) (checkDup : Bool) : Out :=
  if o.inv.writeable = false then fail o "object not writeable"
  else
    match buildNames w o.inv [path] area with
    | .error e => ⟨o, some e⟩
    | .ok (names, mp) =>
      let newPath := names.headD []
      let o1 : Obj := { o with updateFiles := o.updateFiles ++ [newPath] }
      if checkDup then
        match w.hash o.inv.digestAlg with
        | none => fail o1 "cannot create digest"
        | some h => addChecked w o1 names mp newPath (h data) data
      else addReader w o1 names mp data

/-- pkg/ocfl/objectbase.go:736-771 `AddReader`: one content under several names.  The error of `BuildNames` is
not checked, the nil result is dereferenced. -/
def objAddReader (w : World) (o : Obj) (files : List Str) (area : Str) (data : Bytes) : Out :=
  if files = [] then fail o "no files given"
  else if o.inv.writeable = false then fail o "object not writeable"
  else
    match buildNames w o.inv files area with
    | .error _ => ⟨o, some (.panic "nil dereference: names")⟩
    | .ok (names, mp) => addReader w o names mp data

/-- pkg/ocfl/objectbase.go:952-974 `DeleteFile` and 976-998 `RenameFile`: only if the object has the path with
that digest -/
def objIfExists (o : Obj) (path digest : Str) (f : Inv → Res Inv) : Out :=
  if o.inv.writeable = false then fail o "object not writeable"
  else
    match alreadyExists o.inv path digest with
    | .error e => ⟨o, some e⟩
    | .ok false => ok o
    | .ok true => withInv o (f o.inv)

/-- pkg/ocfl/objectbase.go:509-523 `echoDelete` -/
def objEcho (w : World) (o : Obj) : Out :=
  match w.statePath ".".toList [] with
  | .error e => ⟨o, some e⟩
  | .ok base => withInv { o with updateFiles := slicesCompact (sortStr o.updateFiles) }
      (objEchoDelete o.inv o.updateFiles base)

/-- A call during a session, made by the user or by an extension hook. -/
inductive Call where
  | add (path area : Str) (data : Bytes) (checkDup : Bool)
  | reader (files : List Str) (area : Str) (data : Bytes)
  | delete (path digest : Str)
  | rename (src dest digest : Str)
  | beginArea
  | endArea
  /-- an extension writes a file of its own directory -/
  | ext (name : Str) (data : Bytes)
  deriving DecidableEq, Repr

def extPath (name : Str) : Str := "extensions/".toList ++ name

/-- One call.  `beginArea`, `endArea`: pkg/ocfl/objectbase.go:615-629. -/
def runCall (w : World) (o : Obj) : Call → Out
  | .add p a d c => objAdd w o p a d c
  | .reader fs a d => objAddReader w o fs a d
  | .delete p d => objIfExists o p d (fun i => deleteFile i p)
  | .rename a b d => objIfExists o a d (fun i => renameFile i a b)
  | .beginArea => ok { o with updateFiles := [] }
  | .endArea => (if o.echo then objEcho w o else ok o).andThen (fun o => ok { o with updateFiles := [] })
  | .ext n d => ok (o.write (writeFile (extPath n) d))

def runCalls (w : World) (o : Obj) : List Call → Out
  | [] => ok o
  | c :: cs => (runCall w o c).andThen (fun o => runCalls w o cs)

/-- a new version's metadata -/
structure VInfo where
  msg : Str
  userName : Str
  userAddress : Str
  now : Str

/-- pkg/ocfl/objectbase.go:547-565 `StartUpdate`; `before`: what `UpdateObjectBefore` calls -/
def startUpdate (w : World) (o : Obj) (v : VInfo) (echo : Bool) (before : List Call) : Out :=
  (withInv { o with echo := echo } (newVersion o.inv v.msg v.userName v.userAddress v.now)).andThen
    (fun o => runCalls w o before)

def rootInvPath : Str := "inventory.json".toList
def rootSidecarPath (alg : Str) : Str := "inventory.json.".toList ++ alg
def verInvPath (ver : Str) : Str := ver ++ "/inventory.json".toList
def verSidecarPath (ver alg : Str) : Str := ver ++ ("/inventory.json.".toList ++ alg)

/-- `%s` of an ASCII string written to a file -/
def asBytes (s : Str) : Bytes := s.map (fun c => c.toNat.toUInt8)

/-- pkg/ocfl/objectbase.go:360: content of the sidecar -/
def sidecarText (digest : Str) : Bytes := asBytes (digest ++ " inventory.json".toList)

/-- pkg/ocfl/objectbase.go:336-415 `StoreInventory` -/
def storeInventory (w : World) (o : Obj) (version root : Bool) : Out :=
  if o.inv.writeable = false then fail o "inventory not writeable"
  else
    match w.hash o.inv.digestAlg with
    | none => fail o "invalid digest algorithm"
    | some h =>
      let json := w.enc o.inv
      ok (o.write
        ((if root then writeFile rootInvPath json ++ writeFile (rootSidecarPath o.inv.digestAlg) (sidecarText (h json))
          else []) ++
         (if version then writeFile (verInvPath o.inv.head) json ++
            writeFile (verSidecarPath o.inv.head o.inv.digestAlg) (sidecarText (h json))
          else [])))

/-- What happens in a version added by an extension (`NeedNewVersion`): the hook `UpdateObjectBefore`, the
calls of `DoNewVersion`, the hook `UpdateObjectAfter`. -/
structure Round where
  info : VInfo
  before : List Call
  body : List Call
  after : List Call

/-- pkg/ocfl/objectbase.go:567-613 `EndUpdate`; `after`: what `UpdateObjectAfter` calls; `rounds`: the versions
extensions ask for. -/
def endUpdate (w : World) (o : Obj) (after : List Call) : List Round → Out
  | [] =>
    if o.inv.writeable = false then ok o
    else if o.inv.modified = false then ok o
    else
      (if o.echo then objEcho w o else ok o).andThen fun o =>
      (runCalls w o after).andThen fun o =>
      (withInv o (clean o.inv)).andThen fun o => storeInventory w o true false
  | r :: rs =>
    if o.inv.writeable = false then ok o
    else if o.inv.modified = false then ok o
    else
      (if o.echo then objEcho w o else ok o).andThen fun o =>
      (runCalls w o after).andThen fun o =>
      (withInv o (clean o.inv)).andThen fun o =>
      (storeInventory w o true false).andThen fun o =>
      (startUpdate w o r.info false r.before).andThen fun o =>
      (runCalls w o r.body).andThen fun o => endUpdate w o r.after rs

/-- pkg/ocfl/objectbase.go:525-545 `Close`; `exts`: the files `StoreExtensions` writes below `extensions/` -/
def closeObj (w : World) (o : Obj) (exts : List (Str × Bytes)) : Out :=
  if o.inv.writeable = false then ok o
  else if o.inv.modified = false then ok o
  else
    (withInv o (clean o.inv)).andThen fun o =>
    (storeInventory w o false true).andThen fun o =>
    ok (o.write (exts.flatMap (fun e => writeFile (extPath e.1) e.2)))

/-- One update session (gocfl/cmd/helper.go:338-361 and the other commands): `StartUpdate`, calls, `EndUpdate`,
`Close`. -/
structure Session where
  info : VInfo
  echo : Bool
  before : List Call
  body : List Call
  after : List Call
  rounds : List Round
  exts : List (Str × Bytes)

/-- the session up to `EndUpdate` -/
def sessionOpen (w : World) (inv : Inv) (s : Session) : Out :=
  (startUpdate w ⟨inv, [], false, []⟩ s.info s.echo s.before).andThen fun o =>
  (runCalls w o s.body).andThen fun o => endUpdate w o s.after s.rounds

def session (w : World) (inv : Inv) (s : Session) : Out :=
  (sessionOpen w inv s).andThen fun o => closeObj w o s.exts

end Gocfl
