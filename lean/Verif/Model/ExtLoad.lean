import Verif.Go.Basic
import Verif.Go.Strings

/-!
# Model of loading and storing the extensions of an object or a storage root
(`pkg/ocfl/extensionFactory.go:42-212`, `pkg/extension/initial.go`,
`pkg/extension/NNNN-gocfl-extension-manager.go:111-185, 290-312`)

A folder `extensions` is a list of sub folders, each with its `config.json` if there is one that can be read.
Simplifications: a configuration is given by its fields, not by its JSON text; the state of an extension other than
`initial` and the extension manager is a value of type `β`, `make` is its creator; no extension parameters are set on
the command line; both built-in extensions are registered (`gocfl/cmd/helper.go:56-64`).
-/

namespace Gocfl

def nmInitial : Str := "initial".toList
def nmManager : Str := "NNNN-gocfl-extension-manager".toList

/-- A `config.json`: `extensionName`, `extension` (initial), `sort` and `exclusion` (manager), the other fields. -/
structure ExtCfg (β : Type) where
  name : Str
  extension : Option Str := none
  sort : AMap Str (List Str) := []
  exclusion : AMap Str (List (List Str)) := []
  rest : Option β := none
  deriving DecidableEq, Repr

/-- An extension in memory.  `initial` has the fields `ExtensionName` and `Extension` of its configuration. -/
inductive Ext (β : Type) where
  | initial (cfgName extension : Str)
  | manager (sort : AMap Str (List Str)) (exclusion : AMap Str (List (List Str)))
  | other (name : Str) (state : β)
  deriving DecidableEq, Repr

variable {β : Type}

/-- `GetName`; initial.go:109: the constant, not the configured name -/
def Ext.name : Ext β → Str
  | .initial _ _ => nmInitial
  | .manager _ _ => nmManager
  | .other n _ => n

/-- pkg/ocfl/extensionFactory.go:42-76 `Create`, initial.go:27-58, NNNN-gocfl-extension-manager.go:21-59 -/
def createExt (make : Str → Option β → Option β) (c : ExtCfg β) : Option (Ext β) :=
  if c.name = nmInitial then some (.initial c.name (c.extension.getD nmManager))
  else if c.name = nmManager then some (.manager c.sort c.exclusion)
  else (make c.name c.rest).map (.other c.name)

/-- pkg/ocfl/extensionFactory.go:84-131, one sub folder: what it contributes; `none` if it is not supported.  In the folder
`initial` another extension is taken for the manager: `SetExtension` (initial.go:82-84) sets the field `ExtensionName`. -/
def scanFolder (make : Str → Option β → Option β) (e : Str × Option (ExtCfg β)) : Option (List (Ext β)) :=
  (e.2.bind (createExt make)).map fun ext =>
    if e.1 = nmInitial ∧ ext.name ≠ nmInitial then [.initial ext.name nmManager, ext] else [ext]

/-- pkg/ocfl/extensionFactory.go:84-131: without somebody to report to (`validation == nil`) an unsupported extension is a
call of a method of nil -/
def scanFolders (make : Str → Option β → Option β) (report : Bool) : List (Str × Option (ExtCfg β)) → Res (List (Ext β))
  | [] => .ok []
  | e :: es =>
    match scanFolder make e with
    | none => if report then scanFolders make report es else .error (.panic "nil pointer dereference")
    | some l => scanFolders make report es >>= fun r => .ok (l ++ r)

/-- pkg/ocfl/extensionFactory.go:136-147: the last `initial` -/
def lastInitial : List (Ext β) → Option (Str × Str)
  | [] => none
  | .initial n x :: l => (lastInitial l).or (some (n, x))
  | _ :: l => lastInitial l

def Ext.isInitial : Ext β → Bool
  | .initial _ _ => true
  | _ => false

/-- the extension manager: its configuration, the extensions and `initial` -/
structure ExtMgr (β : Type) where
  sort : AMap Str (List Str)
  exclusion : AMap Str (List (List Str))
  exts : List (Ext β)
  initial : Str × Str
  deriving DecidableEq, Repr

/-- pkg/ocfl/extensionFactory.go:150-166: one extension, if `initial` names the manager `x`: the manager so far, the
extensions kept, an error -/
def pickStep (x : Str) (s : Option (AMap Str (List Str) × AMap Str (List (List Str))) × List (Ext β) × Bool) (ext : Ext β) :
    Option (AMap Str (List Str) × AMap Str (List (List Str))) × List (Ext β) × Bool :=
  if ext.name = x then
    match ext with
    | .manager so ex => (some (so, ex), s.2.1, s.2.2)
    | _ => (none, s.2.1 ++ [ext], true)
  else (s.1, s.2.1 ++ [ext], s.2.2)

/-- pkg/ocfl/extensionFactory.go:78-212 `CreateExtensions`: the manager, and whether there is an error besides.  The
callers give up on an error (storageroot.go:116-119, storagerootbase.go:181-184, 347-351). -/
def createExtensions (make : Str → Option β → Option β) (report : Bool) (dirs : List (Str × Option (ExtCfg β))) :
    Res (ExtMgr β × Bool) :=
  scanFolders make report dirs >>= fun l =>
    let rest := l.filter (fun e => !e.isInitial)
    let picked := match lastInitial l with
      | none => (none, rest, false)
      | some (_, x) => rest.foldl (pickStep x) (none, [], false)
    let m := picked.1.getD ([], [])
    .ok (⟨m.1, m.2, picked.2.1.filter (fun e => decide (e.name ≠ nmManager)), (lastInitial l).getD (nmManager, nmManager)⟩,
      picked.2.2 || (picked.1.isNone && (lastInitial l).isSome) || picked.2.1.any (fun e => decide (e.name = nmManager)))

/-- the configuration an extension writes -/
def Ext.cfg : Ext β → ExtCfg β
  | .initial n x => { name := n, extension := some x }
  | .manager so ex => { name := nmManager, sort := so, exclusion := ex }
  | .other n s => { name := n, rest := some s }

/-- NNNN-gocfl-extension-manager.go:290-312 `WriteConfig`: the files written, as sub folder and configuration; that of the
manager only if it says something -/
def mgrFiles (m : ExtMgr β) : List (Str × ExtCfg β) :=
  (m.exts ++ [Ext.initial m.initial.1 m.initial.2]).map (fun e : Ext β => (e.name, e.cfg)) ++
    if m.exclusion ≠ [] ∨ m.sort ≠ [] then [(nmManager, (Ext.manager m.sort m.exclusion).cfg)] else []

/-- the folder `extensions` after storing in an empty one.  `folders`: whether `SetFS(…, true)` leaves folders without
files (NNNN-gocfl-extension-manager.go:156-185); there is one for the manager. -/
def storeExts (folders : Bool) (m : ExtMgr β) : AMap Str (Option (ExtCfg β)) :=
  (mgrFiles m).foldl (fun d e => mset d e.1 (some e.2)) (if folders then [(nmManager, none)] else [])

/-- `fs.ReadDir`: sorted by name -/
def readDirs (d : AMap Str (Option (ExtCfg β))) : List (Str × Option (ExtCfg β)) := sortBy (fun a b => strLe a.1 b.1) d

end Gocfl
