import Verif.Model.RootCheck
import Verif.Model.ExtLoad

/-!
# Model of creating a storage root and of opening it
(`pkg/ocfl/storageroot.go:83-131`, `pkg/ocfl/storagerootbase.go:82-187`, commands `init` and `create`)

The files of the storage root are bytes; how configurations are written and read is a pair of functions (`CfgText`).
Directories matter in one place: `SetFS(…, true)` makes a folder for every extension before the first configuration is
written, so the sub folders of `extensions` that were made are part of the state (`RootDisk`).  Simplifications: writing
does not fail; JSON is abstract.
-/

namespace Gocfl

variable {β : Type}

/-- How the configuration of an extension is written to `config.json`, and what is read from one. -/
structure CfgText (β : Type) where
  enc : ExtCfg β → Bytes
  dec : Bytes → Option (ExtCfg β)

/-- A storage root on its file system: the files, and the sub folders of `extensions` that were made. -/
structure RootDisk where
  fs : FS
  made : List Str
  deriving DecidableEq, Repr

/-- the configuration of an extension -/
def cfgPath (n : Str) : Str := "extensions/".toList ++ (n ++ "/config.json".toList)

/-- the sub folder of `extensions` a file is in -/
def extFolderOf (p : Str) : Option Str :=
  if "extensions/".toList.isPrefixOf p then
    let r := p.drop "extensions/".toList.length
    if '/' ∈ r then some (r.takeWhile (fun c => decide (c ≠ '/'))) else none
  else none

/-- the sub folders of `extensions`: those made and those with files -/
def extFolders (s : RootDisk) : List Str := (s.made ++ (mkeys s.fs).filterMap extFolderOf).dedup

/-- `fs.ReadDir` of `extensions` and the `config.json` of each sub folder -/
def extDirs (T : CfgText β) (s : RootDisk) : List (Str × Option (ExtCfg β)) :=
  (sortStr (extFolders s)).map (fun n => (n, (mget s.fs (cfgPath n)).bind T.dec))

/-- What `init` is called with: OCFL version, the documents of the tool (docs/embed.go), what the layouts say about
themselves. -/
structure InitArgs (β : Type) where
  version : Str
  docs : List (Str × Bytes)
  announce : Ext β → Bytes

/-- pkg/ocfl/storagerootbase.go:101-131: declaration and documents -/
def initTop (a : InitArgs β) : List (Str × Bytes) :=
  ("0=".toList ++ (rootDecl ++ a.version), asBytes (rootDecl ++ a.version ++ "\n".toList)) :: a.docs

/-- pkg/ocfl/storagerootbase.go:133-142 with NNNN-gocfl-extension-manager.go:290-322: configurations, then
`ocfl_layout.json`, which every layout in use writes -/
def initExt (T : CfgText β) (a : InitArgs β) (m : ExtMgr β) (layouts : List (Ext β)) : List (Str × Bytes) :=
  (mgrFiles m).map (fun e => (cfgPath e.1, T.enc e.2)) ++ layouts.map (fun l => ("ocfl_layout.json".toList, a.announce l))

/-- NNNN-gocfl-extension-manager.go:156-185 `SetFS(…, true)`: the folders made, on file systems that have folders -/
def initFolders (folders : Bool) (m : ExtMgr β) : List Str :=
  if folders then (m.exts ++ [Ext.initial m.initial.1 m.initial.2]).map Ext.name ++ [nmManager] else []

/-- the writes for a list of files -/
def writeAll (l : List (Str × Bytes)) : List FsOp := l.flatMap (fun f => writeFile f.1 f.2)

/-- pkg/ocfl/storageroot.go:83-95 `CreateStorageRoot` with pkg/ocfl/storagerootbase.go:82-143 `Init`: the storage root
afterwards, or an error, after which nothing was changed.  `layouts`: the layouts in use. -/
def initRoot (T : CfgText β) (folders : Bool) (a : InitArgs β) (m : ExtMgr β) (layouts : List (Ext β)) (s : RootDisk) :
    RootDisk × Option GoErr :=
  if supportedRoot a.version then
    if s.fs = [] ∧ s.made = [] then
      (⟨applyOps s.fs (writeAll (initTop a ++ initExt T a m layouts)), initFolders folders m⟩, none)
    else (s, some (.error "storage root not empty"))
  else (s, some (.error "storage root version not supported"))

/-- What an interruption of `init` in an empty folder may leave: it happens while declaration and documents are written,
while folders are made, or while configurations and layout are written. -/
inductive InitCrash (T : CfgText β) (folders : Bool) (a : InitArgs β) (m : ExtMgr β) (layouts : List (Ext β)) : RootDisk → Prop
  | top {t : List FsOp} : CrashPrefix t (writeAll (initTop a)) → InitCrash T folders a m layouts ⟨applyOps [] t, []⟩
  | folder (k : Nat) : InitCrash T folders a m layouts ⟨applyOps [] (writeAll (initTop a)), (initFolders folders m).take k⟩
  | ext {t : List FsOp} : CrashPrefix t (writeAll (initExt T a m layouts)) →
      InitCrash T folders a m layouts ⟨applyOps [] (writeAll (initTop a) ++ t), initFolders folders m⟩

/-- pkg/ocfl/storageroot.go:97-131 `LoadStorageRoot` with pkg/ocfl/storagerootbase.go:145-187 `Load`: the version and the
extensions.  `empty`: whether a folder `extensions` without anything in it can be read (it is there, or the file system
does not mind).  Without a declaration the version is 1.0, with findings.  The extensions are created twice, first with
nobody to report to. -/
def loadStorageRoot (make : Str → Option β → Option β) (T : CfgText β) (empty : Bool) (s : RootDisk) : Res (Str × ExtMgr β) :=
  let exts := fun v =>
    if extDirs T s = [] ∧ empty = false then .error (.error "cannot read folder storageroot")
    else createExtensions make false (extDirs T s) >>= fun r =>
      if r.2 then .error (.error "cannot create extension manager") else .ok (v, r.1)
  match getVersion rootDecl (topFiles s.fs) with
  | .version v => if supportedRoot v then exts v else .error (.error "storage root version not supported")
  | .none => exts "1.0".toList
  | _ => .error (.error "cannot get version")

end Gocfl
