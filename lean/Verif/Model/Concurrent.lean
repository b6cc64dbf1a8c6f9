import Verif.Model.Cmd

/-!
# Model of several commands working on one storage root at the same time

The code has no locks.  A command reads and writes its object's folder in steps; between two steps other commands may
run, and a write may happen in pieces.  `Prog` lists the steps of a command in the folder of its object;
`gocfl/cmd/helper.go:305-361`, `add.go:278-304` and `update.go:249-280` are written down again in this form.
Simplifications: listing a folder and reading inventory and sidecar are one step; the configuration of the storage root is
read before.
-/

namespace Gocfl

/-- The steps of a command in the folder of an object: it ends with or without an error, looks at the folder, or makes one
change. -/
inductive Prog where
  | stop (err : Option GoErr)
  | look (k : FS → Prog)
  | put (op : FsOp) (k : Prog)

/-- the folder and the error in the end, if nobody else is at work -/
def Prog.alone : Prog → FS → FS × Option GoErr
  | .stop e, o => (o, e)
  | .look k, o => (k o).alone o
  | .put op k, o => k.alone (op.apply o)

/-- One step of a command whose object is in `folder`. -/
inductive Step (folder : Str) : Prog → FS → Prog → FS → Prop
  | look (k : FS → Prog) (fs : FS) : Step folder (.look k) fs (k (subFS fs folder)) fs
  | put (op : FsOp) (k : Prog) (fs : FS) : Step folder (.put op k) fs k ((op.lift folder).apply fs)
  | part (p : Str) (b b' : Bytes) (k : Prog) (fs : FS) :
      Step folder (.put (.append p (b ++ b')) k) fs (.put (.append p b') k) (((FsOp.append p b).lift folder).apply fs)

/-- What may come out if the commands `l`, each with the folder of its object, work at the same time. -/
inductive Conc : List (Str × Prog) → FS → List (Str × Prog) → FS → Prop
  | refl (l : List (Str × Prog)) (fs : FS) : Conc l fs l fs
  | step {a b : List (Str × Prog)} {f : Str} {p p' : Prog} {fs fs' fs'' : FS} {l : List (Str × Prog)} :
      Step f p fs p' fs' → Conc (a ++ (f, p') :: b) fs' l fs'' → Conc (a ++ (f, p) :: b) fs l fs''

/-- a list of changes, then the rest -/
def Prog.puts (t : List FsOp) (k : Prog) : Prog := t.foldr .put k

/-- the writes of a session and its end -/
def sessionProg (w : World) (inv : Inv) (s : Session) : Prog := .puts (session w inv s).obj.trace (.stop (session w inv s).err)

/-- pkg/ocfl/storagerootbase.go:329-381 `LoadObjectByFolder`, seen from the object's folder -/
def loadHere (w : World) (env : Env) (plain : Bool) (blank : Inv) (o : FS) : Res (Inv × List Fnd) :=
  match getVersion objDecl (topFiles o) with
  | .version _ => loadInventory w env plain blank o
  | _ => .error (.error "cannot get version")

/-- pkg/ocfl/storagerootbase.go:391-413 `CreateObject`, then the session -/
def createProg (w : World) (a : CreateArgs) (id : Str) (s : Session) (o : FS) : Prog :=
  .puts (initObject a o id).1 (match (initObject a o id).2 with
    | .error e => .stop (some e)
    | .ok inv => if id ≠ [] ∧ inv.id ≠ id then .stop (some (.error "id mismatch")) else sessionProg w inv s)

/-- pkg/ocfl/storagerootbase.go:383-389 `LoadObjectByID`, then the session -/
def loadProg (w : World) (env : Env) (plain : Bool) (blank : Inv) (s : Session) (o : FS) : Prog :=
  match loadHere w env plain blank o with
  | .error e => .stop (some e)
  | .ok (inv, _) => sessionProg w inv s

/-- gocfl/cmd/helper.go:305-361 `addObjectByPath`, once the layout has given a folder -/
def byPathProg (w : World) (env : Env) (plain : Bool) (blank : Inv) (a : CreateArgs) (id : Str) (s : Session) : Prog :=
  .look fun o => if o ≠ [] then .look (loadProg w env plain blank s) else .look (createProg w a id s)

/-- What a command is asked to do. -/
structure Job where
  update : Bool
  id : Str
  args : CreateArgs
  session : Session

/-- gocfl/cmd/add.go:278-304 and gocfl/cmd/update.go:249-280 -/
def Job.prog (w : World) (env : Env) (plain : Bool) (blank : Inv) (ls : List (Str → Res Str)) (j : Job) : Prog :=
  if (rootPath ls j.id).2 then .stop (some (.error "cannot build storage path"))
  else .look fun o => if decide (o ≠ []) = j.update then byPathProg w env plain blank j.args j.id j.session else .stop none

/-- the command, nobody else at work -/
def Job.cmd (w : World) (env : Env) (plain : Bool) (blank : Inv) (ls : List (Str → Res Str)) (j : Job) (fs : FS) :
    List FsOp × Option GoErr :=
  if j.update then updateCmd w env plain blank ls j.args fs j.id j.session
  else addCmd w env plain blank ls j.args fs j.id j.session

/-- the commands, each with the folder of its object -/
def jobProgs (w : World) (env : Env) (plain : Bool) (blank : Inv) (ls : List (Str → Res Str)) (jobs : List Job) :
    List (Str × Prog) :=
  jobs.map (fun j => ((rootPath ls j.id).1, j.prog w env plain blank ls))

end Gocfl
