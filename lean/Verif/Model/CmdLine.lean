import Verif.Model.Cmd

/-!
# Model of what surrounds the commands: the arguments naming the folders to add, and how the commands end
(`gocfl/cmd/root.go:106`, `add.go:203-308`, `update.go:161-281`, `validate.go:110-145`, `extract.go:159-182`, `helper.go:279-303`)

Simplifications: what happens before the folders are opened (logger, configuration, extension factory) succeeds; a folder
is the list of the files below it.
-/

namespace Gocfl

/-- a file to add: its path in the source folder, the area it goes to, its content -/
structure InFile where
  area : Str
  path : Str
  data : Bytes
  deriving DecidableEq

/-- gocfl/cmd/helper.go:338-347: the calls for the files of the folders to add -/
def addAll (dup : Bool) (files : List InFile) : List Call :=
  files.map (fun f => .add f.path f.area f.data dup)

/-- gocfl/cmd/root.go:106 `areaPathRegexp` = `^([a-z]{2,}):(.*)$`: the two groups (`.` is any character but a line feed) -/
def areaArg (s : Str) : Option (Str × Str) :=
  let a := s.takeWhile (fun c => decide (c ≠ ':'))
  match s.dropWhile (fun c => decide (c ≠ ':')) with
  | [] => none
  | _ :: p =>
    if 2 ≤ a.length ∧ (a.all fun c => decide ('a' ≤ c ∧ c ≤ 'z')) = true ∧ '\n' ∉ p then some (a, p) else none

/-- the files of a folder: path and content -/
abbrev Folder := List (Str × Bytes)

/-- gocfl/cmd/add.go:223-235 (update.go:180-192 alike): the arguments after the second one; those without area are skipped,
a later one replaces an earlier one of the same area.  `get` opens and reads a folder. -/
def areaFolders (get : Str → Res Folder) (m : AMap Str Folder) : List Str → Res (AMap Str Folder)
  | [] => .ok m
  | arg :: args =>
    match areaArg arg with
    | none => areaFolders get m args
    | some (a, p) =>
      match get p with
      | .error e => .error e
      | .ok f => areaFolders get (mset m a f) args

def inArea (area : Str) (f : Folder) : List InFile := f.map (fun x => ⟨area, x.1, x.2⟩)

/-- gocfl/cmd/helper.go:338-347: the files of the source folder, then those of the areas -/
def cmdFiles (area : Str) (src : Folder) (areas : AMap Str Folder) : List InFile :=
  inArea area src ++ areas.flatMap (fun e => inArea e.1 e.2)

/-- how a command ends: `success` — exit status 0 (a panic gives 2); `shown` — the findings of the context, if
`showStatus` (gocfl/cmd/helper.go:279-303) was reached, which closes with `no errors found` if no error is among them -/
structure Finish where
  success : Bool
  shown : Option (List Fnd)

/-- What the user gives: the default area, the source folder, the further arguments, what else belongs to a session. -/
structure CmdLine where
  id : Str
  area : Str
  src : Str
  args : List Str
  dup : Bool
  rest : Session

/-- What the run depends on: `get` opens and reads a folder, `order` is the order in which Go visits a map, `closes` tells
whether the storage root can be closed (gocfl/cmd/add.go:208-217), `found` are the findings recorded during the run. -/
structure Surroundings where
  get : Str → Res Folder
  order : AMap Str Folder → AMap Str Folder
  closes : Bool
  found : List Fnd

/-- the folders named by a command line -/
def openFolders (u : Surroundings) (c : CmdLine) : Res (List InFile) :=
  u.get c.src >>= fun src =>
  areaFolders u.get [] c.args >>= fun areas => .ok (cmdFiles c.area src (u.order areas))

/-- the session of a command line -/
def CmdLine.session (c : CmdLine) (files : List InFile) : Session := { c.rest with body := addAll c.dup files }

/-- gocfl/cmd/add.go:200-308 `doAdd`: every error is a panic -/
def addRun (w : World) (env : Env) (plain : Bool) (blank : Inv) (ls : List (Str → Res Str)) (a : CreateArgs) (fs : FS)
    (u : Surroundings) (c : CmdLine) : List FsOp × Finish :=
  match openFolders u c with
  | .error _ => ([], ⟨false, none⟩)
  | .ok files =>
    match objectExists ls fs c.id with
    | .error _ => ([], ⟨false, none⟩)
    | .ok true => ([], ⟨u.closes, none⟩)
    | .ok false =>
      let r := addObjectByPath w env plain blank ls a fs c.id (c.session files)
      match r.2 with
      | some _ => (r.1, ⟨false, none⟩)
      | none => (r.1, ⟨u.closes, some u.found⟩)

/-- gocfl/cmd/update.go:156-281 `doUpdate`: an error is logged; the deferred function (164-173) panics then.  The status
is shown before. -/
def updateRun (w : World) (env : Env) (plain : Bool) (blank : Inv) (ls : List (Str → Res Str)) (a : CreateArgs) (fs : FS)
    (u : Surroundings) (c : CmdLine) : List FsOp × Finish :=
  match openFolders u c with
  | .error _ => ([], ⟨false, none⟩)
  | .ok files =>
    match objectExists ls fs c.id with
    | .error _ => ([], ⟨false, none⟩)
    | .ok false => ([], ⟨false, none⟩)
    | .ok true =>
      let r := addObjectByPath w env plain blank ls a fs c.id (c.session files)
      match r.2 with
      | some (.panic _) => (r.1, ⟨false, none⟩)
      | some (.error _) => (r.1, ⟨false, some u.found⟩)
      | none => (r.1, ⟨u.closes, some u.found⟩)

/-- gocfl/cmd/validate.go:110-145 `doValidate`: an error of the check is logged, its findings are not shown; there is no
deferred panic -/
def validateRun (check : Res (List Fnd)) : Finish :=
  match check with
  | .error (.panic _) => ⟨false, none⟩
  | .error (.error _) => ⟨true, none⟩
  | .ok f => ⟨true, some f⟩

/-- gocfl/cmd/extract.go:159-182 `doExtract`; `empty` tells whether the target folder is empty, `e` is the error of the
extraction.  The second component tells whether `extraction done without errors` is printed. -/
def extractRun (empty : Bool) (e : Option GoErr) (found : List Fnd) : Finish × Bool :=
  if empty = false then (⟨true, none⟩, false)
  else
    match e with
    | some (.panic _) => (⟨false, none⟩, false)
    | some (.error _) => (⟨true, none⟩, false)
    | none => (⟨true, some found⟩, true)

end Gocfl
