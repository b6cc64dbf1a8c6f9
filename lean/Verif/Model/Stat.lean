import Verif.Model.CmdLine
import Verif.Model.RootCheck
import Verif.Model.Settings

/-!
# Model of the command `stat` (`pkg/ocfl/stat.go`, `pkg/ocfl/objectbase.go:161-214`, `pkg/ocfl/storagerootbase.go:521-611`,
`gocfl/cmd/stat.go:102-169`)

A listing is the lines printed and the error that ends it.  Simplifications: writing to the terminal never fails; the JSON
text of the configurations of extensions is given; inside `user` of a version whose name has no number, missing name and address are
read as empty (the code crashes on them as it does on a missing `user`, which is modelled).
-/

namespace Gocfl

/-- pkg/ocfl/stat.go:5-15 `StatInfo` -/
inductive StatInfo
  | objectFolders | extension | extensionConfigs | objects | objectVersions | objectVersionState | objectManifest
  | objectExtension | objectExtensionConfigs
  deriving DecidableEq, Repr

/-- pkg/ocfl/stat.go:17-27 `StatInfoString` -/
def statInfoNames : List (Str × StatInfo) :=
  [("ObjectFolders".toList, .objectFolders), ("Extension".toList, .extension), ("ExtensionConfigs".toList, .extensionConfigs),
   ("Objects".toList, .objects), ("ObjectVersions".toList, .objectVersions),
   ("ObjectVersionState".toList, .objectVersionState), ("ObjectManifest".toList, .objectManifest),
   ("ObjectExtension".toList, .objectExtension), ("ObjectExtensionConfigs".toList, .objectExtensionConfigs)]

/-- gocfl/cmd/stat.go:110-124: the infos of the names configured; an unknown name ends the program -/
def statInfos : List Str → Option (List StatInfo)
  | [] => some []
  | s :: l =>
    match statInfoNames.filter (fun e => decide (toLower e.1 = toLower (trimSpace s))) with
    | [] => none
    | f => (statInfos l).map (fun r => f.map Prod.snd ++ r)

/-- `slices.Contains(statInfo, …) || len(statInfo) == 0` -/
def wanted (sel : List StatInfo) (i : StatInfo) : Bool := decide (i ∈ sel) || decide (sel = [])

/-- the lines printed, and what ended the printing -/
abbrev Listing := List Str × Option GoErr

/-- printing goes on if nothing ended it -/
def Listing.more (a b : Listing) : Listing :=
  match a.2 with
  | some _ => a
  | none => (a.1 ++ b.1, b.2)

def printed (l : List Str) : Listing := (l, none)

/-- following a nil pointer -/
def deref (isNil : Bool) (what : String) : Listing := ([], if isNil then some (.panic what) else none)

/-- the JSON texts of the configurations: of the manager, of each extension -/
structure ExtText where
  initial : Str
  configs : List Str

/-- What the listing depends on besides the files: how time stamps and errors are written, the version and the extensions of the
storage root, the extensions of the object in a folder. -/
structure StatEnv where
  w : World
  env : Env
  plain : Bool
  blank : Inv
  ls : List (Str → Res Str)
  showTime : Str → Str
  errText : GoErr → Str
  version : Str
  rootExt : ExtText
  objExt : Str → ExtText

/-- `strings.Join(l, ", ")` -/
def commaJoin : List Str → Str
  | [] => []
  | [a] => a
  | a :: b :: l => a ++ (", ".toList ++ commaJoin (b :: l))

/-- the beginning of each line about an object -/
def idTag (id : Str) : Str := '[' :: (id ++ "] ".toList)

/-- pkg/ocfl/storagerootbase.go:528-547, objectbase.go:199-212: the part about extensions -/
def extLines (tag : Str) (x : ExtText) : List Str :=
  [tag ++ "Initial Extension:".toList, "---".toList, x.initial, "---".toList, tag ++ "Extension Configurations:".toList] ++
    x.configs.flatMap (fun c => ["---".toList, c])

/-- pkg/ocfl/objectbase.go:185-194: a logical path, and the files it is stored in -/
def fileLines (id : Str) (man : DMap) (sel : List StatInfo) (cs s : Str) : List Str :=
  (idTag id ++ ("       ".toList ++ s)) ::
    (if wanted sel .objectManifest then ((mget man cs).getD []).map (fun m => idTag id ++ ("          ".toList ++ m)) else [])

/-- pkg/ocfl/objectbase.go:183-195: the state of a version -/
def stateLines (id : Str) (man : DMap) (sel : List StatInfo) (state : DMap) : List Str :=
  state.flatMap (fun e => e.2.flatMap (fun s => fileLines id man sel e.1 s))

/-- pkg/ocfl/objectbase.go:178-196: one version.  Missing values were filled in by `Finalize` only if the name of the version has
a number (pkg/ocfl/inventorybase.go:134-156). -/
def versionStat (S : StatEnv) (id : Str) (man : DMap) (vm : Str → VMeta) (sel : List StatInfo) (e : Str × Version) : Listing :=
  let odd := decide (verNumber e.1 = none)
  let m := vm e.1
  (printed [idTag id ++ ("Version ".toList ++ e.1)]).more <|
  (deref (m.isNil || (odd && m.userNil)) "nil dereference: user").more <|
  (printed [idTag id ++ ("    User: ".toList ++ (e.2.userName ++ (" (".toList ++ (e.2.userAddress ++ ")".toList))))]).more <|
  (deref m.createdNil "nil dereference: created").more <|
  (printed [idTag id ++ ("    Created: ".toList ++ S.showTime e.2.created)]).more <|
  (deref (odd && m.messageNil) "nil dereference: message").more <|
  (printed [idTag id ++ ("    Message: ".toList ++ e.2.message)]).more <|
  if wanted sel .objectVersionState then
    (deref (odd && m.stateNil) "nil dereference: state").more (printed (stateLines id man sel e.2.state))
  else printed []

/-- one after the other, until something ends the printing -/
def eachStat {α : Type} (f : α → Listing) : List α → Listing
  | [] => printed []
  | a :: l => (f a).more (eachStat f l)

/-- pkg/ocfl/objectbase.go:161-214 `Stat` of an object.  `made` — there was no inventory file: the manifest is nil. -/
def objStat (S : StatEnv) (x : ExtText) (made : Bool) (inv : Inv) (vm : Str → VMeta) (sel : List StatInfo) : Listing :=
  let t := idTag inv.id
  (printed [t ++ ("Path: ".toList ++ inv.digestAlg), t ++ ("Head: ".toList ++ inv.head),
    t ++ ("Fixity: ".toList ++ commaJoin (mkeys inv.fixity))]).more <|
  (deref made "nil dereference: manifest").more <|
  (printed [t ++ ("Manifest: ".toList ++ (fmtNat (inv.manifest.map (fun e => e.2.length)).sum ++
    (" files (".toList ++ (fmtNat inv.manifest.length ++ " unique files)".toList))))]).more <|
  (if wanted sel .objectVersions then eachStat (versionStat S inv.id inv.manifest vm sel) inv.versions else printed []).more <|
  printed (if wanted sel .objectExtensionConfigs then extLines t x else [])

/-- what decoding the inventory left behind for each version -/
def folderMeta (S : StatEnv) (fs : FS) (folder : Str) : Str → VMeta :=
  match mget (subFS fs folder) rootInvPath with
  | none => fun _ => {}
  | some b =>
    match S.w.dec b with
    | none => fun _ => {}
    | some r => r.vm

/-- whether the object in a folder has no inventory file -/
def noInventory (fs : FS) (folder : Str) : Bool := decide (mget (subFS fs folder) rootInvPath = none)

/-- `Stat` of the object loaded from a folder -/
def folderStat (S : StatEnv) (fs : FS) (folder : Str) (inv : Inv) (sel : List StatInfo) : Listing :=
  objStat S (S.objExt folder) (noInventory fs folder) inv (folderMeta S fs folder) sel

/-- pkg/ocfl/storagerootbase.go:574-587: one object of the whole storage root -/
def rootObjStat (S : StatEnv) (fs : FS) (sel : List StatInfo) (folder : Str) : Listing :=
  match loadByFolder S.w S.env S.plain S.blank fs folder with
  | .error e => ([], some e)
  | .ok (inv, _) => (printed ["Object: ".toList ++ folder]).more (folderStat S fs folder inv sel)

/-- pkg/ocfl/storagerootbase.go:589-608: the one object asked for; `name` is path or id as given -/
def oneObjStat (S : StatEnv) (fs : FS) (sel : List StatInfo) (name folder : Str) (loaded : Res (Inv × List Fnd)) : Listing :=
  match loaded with
  | .error (.panic p) => ([], some (.panic p))
  | .error e => (["cannot load object '".toList ++ (name ++ ("': ".toList ++ S.errText e))], some e)
  | .ok (inv, _) => (printed ["Object: ".toList ++ name]).more (folderStat S fs folder inv sel)

/-- pkg/ocfl/storagerootbase.go:521-611 `Stat` of a storage root; `t` is the tree of its folders -/
def rootStat (S : StatEnv) (fs : FS) (t : FDir) (path id : Str) (sel : List StatInfo) : Listing :=
  let ext := if wanted sel .extensionConfigs then extLines [] S.rootExt else []
  (printed (["Storage Root".toList, "OCFL Version: ".toList ++ S.version] ++ ext)).more <|
  if path = [] ∧ id = [] then
    let folders := (getObjectFolders t).map folderPath
    (printed (("Object Folders: ".toList ++ commaJoin folders) :: ext)).more <|
    if wanted sel .objects then eachStat (rootObjStat S fs sel) folders else printed []
  else if path ≠ [] then oneObjStat S fs sel (path ++ id) path (loadByFolder S.w S.env S.plain S.blank fs path)
  else oneObjStat S fs sel (path ++ id) (rootPath S.ls id).1 (loadByID S.w S.env S.plain S.blank S.ls fs id)

/-- gocfl/cmd/stat.go:102-169 `doStat` once the storage root is loaded: an error of the listing is logged only -/
def statRun (S : StatEnv) (fs : FS) (t : FDir) (path id : Str) (names : List Str) (found : List Fnd) : List Str × Finish :=
  if path ≠ [] ∧ id ≠ [] then ([], ⟨false, none⟩)
  else
    match statInfos names with
    | none => ([], ⟨false, none⟩)
    | some sel =>
      let r := rootStat S fs t path id sel
      match r.2 with
      | some (.panic _) => (r.1, ⟨false, none⟩)
      | some (.error _) => (r.1, ⟨true, none⟩)
      | none => (r.1, ⟨true, some found⟩)

/-- the text printed -/
def listingText (l : List Str) : Str := l.flatMap (fun s => s ++ ['\n'])

end Gocfl
