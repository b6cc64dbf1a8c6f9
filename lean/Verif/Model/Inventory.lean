import Verif.Go.Strings

/-!
# Model of `pkg/ocfl/inventorybase.go`: the inventory and its operations

The validation part of the same file is in `Verif/Model/Validate.lean`.
-/

namespace Gocfl

/-- `map[string][]string`: digest to list of paths (`OCFLState.State`, `OCFLManifest.Manifest`). -/
abbrev DMap := AMap Str (List Str)

/-- pkg/ocfl/inventorytypes.go:137-142 `Version`.  `created` is the textual time stamp.
Simplification: the fields `err` of `OCFLTime`, `OCFLString`, ... (a decoding error kept for the
validation report) are not modelled. -/
structure Version where
  created : Str
  message : Str
  userName : Str
  userAddress : Str
  state : DMap
  deriving DecidableEq, Repr

/-- pkg/ocfl/inventorybase.go:20-38 `InventoryBase`.  Simplification: `ctx`, `folder`, `object`,
`logger` are left out; `Manifest`, `Versions`, `Fixity` are the maps themselves (`nil` maps are
represented by the empty map; `Finalize` at 118-131 guarantees non-nil `Manifest` and `Versions`, and
`Fixity == nil` is only distinguished from an empty map by its omission from the JSON file). -/
structure Inv where
  id : Str
  spec : Str
  digestAlg : Str
  head : Str
  contentDirectory : Str
  manifest : DMap
  versions : AMap Str Version
  fixity : AMap Str DMap
  fixityAlgs : List Str
  paddingLength : Int
  modified : Bool
  writeable : Bool
  deriving DecidableEq, Repr

/-- pkg/ocfl/inventorybase.go:40-56 `newInventoryBase`, 112-117 `Init`, 118-131 `Finalize(true)`:
the inventory of a freshly created object. -/
def newInv (id spec alg contentDir : Str) (fixityAlgs : List Str) : Inv where
  id := id
  spec := spec
  digestAlg := alg
  head := []
  contentDirectory := contentDir
  manifest := []
  versions := []
  fixity := []
  fixityAlgs := fixityAlgs
  paddingLength := 0
  modified := false
  writeable := false

/-- pkg/ocfl/inventorybase.go:183-188 `GetContentDir` -/
def Inv.contentDir (inv : Inv) : Str :=
  if inv.contentDirectory = [] then "content".toList else inv.contentDirectory

/-- pkg/ocfl/inventorybase.go:721,724,734,736: `v%d`, or `v0%0<p>d` for padding length `p > 0` -/
def verName (pad : Int) (n : Int) : Str :=
  if pad ≤ 0 then 'v' :: fmtInt n else 'v' :: '0' :: fmtIntPad pad.toNat n

/-- pkg/ocfl/inventorybase.go:727-728: `Atoi(TrimLeft(ToLower(head), "v0"))` -/
def headNumber (head : Str) : Option Int := atoi (trimLeft (toLower head) "v0".toList)

/-- pkg/ocfl/helper.go:136-141 `copyMapStringSlice(dest, src)`.  Values are immutable lists here, so
the copying of the slices themselves is implicit. -/
def copyMap (dest src : DMap) : DMap := src.foldl (fun d e => mset d e.1 e.2) dest

/-- pkg/ocfl/inventorybase.go:718-738: the name of the version to open -/
def nextHead (inv : Inv) : Res Str :=
  if inv.head = [] then .ok (verName inv.paddingLength 1)
  else
    match headNumber inv.head with
    | none => .error (.error "cannot determine head of ObjectBase")
    | some v => .ok (verName inv.paddingLength (v + 1))

/-- pkg/ocfl/inventorybase.go:712-751 `NewVersion`.  `now` is the time stamp. -/
def newVersion (inv : Inv) (msg userName userAddress now : Str) : Res Inv :=
  nextHead inv >>= fun newHead =>
  let fresh : Version :=
    { created := now, message := msg, userName := userName, userAddress := userAddress, state := [] }
  let versions := mset inv.versions newHead fresh
  if inv.head = [] then
    .ok { inv with head := newHead, versions := versions, writeable := true }
  else
    match mget versions inv.head with
    | none => .error (.panic "nil dereference: last head not in versions")
    | some last =>
      .ok { inv with
            head := newHead
            versions := mset versions newHead { fresh with state := copyMap [] last.state }
            writeable := true }

/-- `regexp.MustCompile("^v(\\d+)$")` (pkg/ocfl/inventorybase.go:753) followed by `Atoi(matches[1])`. -/
def vNumber : Str → Option Int
  | 'v' :: r => if isDigits r then some (digitsVal r : Int) else none
  | _ => none

/-- The first digest of a state map (in iteration order) listing `path`
(pkg/ocfl/inventorybase.go:801-812 and 852-863). -/
def digestOf (state : DMap) (path : Str) : Option Str :=
  match state with
  | [] => none
  | (d, ps) :: rest => if path ∈ ps then some d else digestOf rest path

/-- pkg/ocfl/inventorybase.go:799-813 / 850-864: `css`, version name to digest of `path` there. -/
def pathDigests (inv : Inv) (path : Str) : AMap Str Str :=
  inv.versions.filterMap (fun e => (digestOf e.2.state path).map (fun d => (e.1, d)))

/-- pkg/ocfl/inventorybase.go:814-837 (same code at 865-888): the digest of `path` in the
numerically last version that has it; looked up under the *unpadded* name `v%d`. -/
def lastDigest (inv : Inv) (path : Str) : Res (Option Str) :=
  let css := pathDigests inv path
  if css = [] then .ok none
  else
    match (mkeys css).mapM vNumber with
    | none => .error (.error "invalid version in inventory")
    | some nums =>
      match mget css ('v' :: fmtInt ((sortInt nums).getLastD 0)) with
      | none => .error (.error "could not get checksum")
      | some d => .ok (some d)

/-- pkg/ocfl/inventorybase.go:791-840 `AlreadyExists` -/
def alreadyExists (inv : Inv) (path digest : Str) : Res Bool :=
  if digest = [] then .ok false
  else do
    match ← lastDigest inv path with
    | none => .ok false
    | some d => .ok (decide (d = digest))

/-- pkg/ocfl/inventorybase.go:842-891 `IsUpdate` -/
def isUpdate (inv : Inv) (path digest : Str) : Res Bool :=
  if digest = [] then .ok false
  else do
    match ← lastDigest inv path with
    | none => .ok false
    | some d => .ok (decide (d ≠ digest))

/-- `i.Versions.Versions[i.GetHead()].State.State`, panicking if the head version does not exist. -/
def headState (inv : Inv) : Res DMap :=
  match mget inv.versions inv.head with
  | none => .error (.panic "nil dereference: head not in versions")
  | some v => .ok v.state

/-- `i.Versions.Versions[i.GetHead()].State.State = s` -/
def setHeadState (inv : Inv) (s : DMap) : Inv :=
  match mget inv.versions inv.head with
  | none => inv
  | some v => { inv with versions := mset inv.versions inv.head { v with state := s } }

/-- pkg/ocfl/inventorybase.go:923-942 `DeleteFile` -/
def deleteFile (inv : Inv) (path : Str) : Res Inv := do
  let s ← headState inv
  let s' : DMap := s.map (fun e => (e.1, e.2.filter (fun p => !decide (p = path))))
  let found := s.any (fun e => decide (path ∈ e.2))
  let inv' := setHeadState inv s'
  .ok { inv' with modified := inv'.modified || found }

/-- pkg/ocfl/inventorybase.go:944-964 `RenameFile` -/
def renameFile (inv : Inv) (src dest : Str) : Res Inv := do
  let s ← headState inv
  let s' : DMap := s.map (fun e => (e.1, e.2.map (fun p => if p = src then dest else p)))
  let found := s.any (fun e => decide (src ∈ e.2))
  let inv' := setHeadState inv s'
  .ok { inv' with modified := inv'.modified || found }

/-- `m[k]` of a `map[string][]string`, the zero value (nil slice) if absent. -/
def mgetD (m : DMap) (k : Str) : List Str := (mget m k).getD []

/-- pkg/ocfl/inventorybase.go:966-979 `CopyFile` -/
def copyFile (inv : Inv) (dest digest : Str) : Res Inv :=
  match mget inv.manifest digest with
  | none => .error (.error "cannot find file with digest")
  | some _ => do
    let s ← headState inv
    if dest ∈ mgetD s digest then .ok inv
    else
      let inv' := setHeadState inv (mset s digest (mgetD s digest ++ [dest]))
      .ok { inv' with modified := true }

/-- pkg/ocfl/inventorybase.go:989-1006, one iteration of the fixity loop of `AddFile` -/
def addFixity (inv : Inv) (manifestPath : Str) (cs : Str × Str) : Inv :=
  if cs.1 = inv.digestAlg then inv
  else
    let algMap : DMap := (mget inv.fixity cs.1).getD []
    let files := mgetD algMap cs.2
    if manifestPath ∈ files then
      { inv with fixity := mset inv.fixity cs.1 (mset algMap cs.2 files) }
    else
      { inv with fixity := mset inv.fixity cs.1 (mset algMap cs.2 (files ++ [manifestPath])),
                 modified := true }

/-- pkg/ocfl/inventorybase.go:1018-1023: recording the content path (if any) in the manifest -/
def addManifest (inv : Inv) (manifestPath digest : Str) : Inv :=
  if manifestPath ≠ [] then
    { inv with manifest := mset inv.manifest digest (mgetD inv.manifest digest ++ [manifestPath]) }
  else inv

/-- pkg/ocfl/inventorybase.go:1033-1039: an update first removes the path from the head state -/
def dropOld (inv : Inv) (upd : Bool) (path : Str) : Res Inv :=
  if upd then deleteFile inv path >>= fun i => .ok { i with modified := true } else .ok inv

/-- pkg/ocfl/inventorybase.go:1041-1044: recording the path in the head state unless it is a duplicate -/
def addState (inv : Inv) (dup : Bool) (digest path : Str) : Res Inv :=
  if dup then .ok inv
  else headState inv >>= fun s =>
    .ok { setHeadState inv (mset s digest (mgetD s digest ++ [path])) with modified := true }

/-- pkg/ocfl/inventorybase.go:1008-1045, one iteration of the loop over the logical names.
Simplification: if an error is returned the partly updated inventory is dropped (all callers abort). -/
def addName (inv : Inv) (manifestPath digest : Str) (path : Str) : Res Inv :=
  alreadyExists inv path digest >>= fun dup =>
  headState (addManifest inv manifestPath digest) >>= fun s =>
  -- 1025-1027: `State[digest]` is created if missing
  let inv2 := setHeadState (addManifest inv manifestPath digest) (mset s digest (mgetD s digest))
  isUpdate inv2 path digest >>= fun upd =>
  dropOld inv2 upd path >>= fun inv3 =>
  addState inv3 dup digest path

/-- pkg/ocfl/inventorybase.go:981-1048 `AddFile` -/
def addFile (inv : Inv) (names : List Str) (manifestPath : Str) (checksums : AMap Str Str) : Res Inv :=
  match mget checksums inv.digestAlg with
  | none => .error (.error "no digest in checksums")
  | some dig =>
    let digest := toLower dig
    let inv1 := checksums.foldl (fun i cs => addFixity i manifestPath cs) inv
    names.foldlM (fun i n => addName i manifestPath digest n) inv1

/-- all logical paths of a state map, in iteration order (pkg/ocfl/inventorybase.go:899-904) -/
def statePaths (s : DMap) : List Str := s.flatMap (·.2)

/-- pkg/ocfl/inventorybase.go:893-921 `echoDelete`; `existing` is searched by binary search. -/
def echoDelete (inv : Inv) (existing : List Str) (pathPrefix : Str) : Res Inv :=
  match mget inv.versions inv.head with
  | none => .error (.error "cannot get version")
  | some v =>
    let dels := (statePaths v.state).filter
      (fun f => hasPrefix f pathPrefix && !(bsearch existing f).2)
    dels.foldlM (fun i f => deleteFile i f) inv

/-- pkg/ocfl/inventorybase.go:755-778 `getLastVersion` (empty string on any unparsable name) -/
def getLastVersion (inv : Inv) : Str :=
  if inv.versions = [] then []
  else
    match (mkeys inv.versions).mapM vNumber with
    | none => []
    | some nums =>
      let last := (sortInt nums).getLastD 0
      -- versionString[lastVersion]: the last key iterated with that number wins
      (((mkeys inv.versions).filter (fun k => decide (vNumber k = some last))).getLast?).getD []

/-- pkg/ocfl/inventorybase.go:1051-1070 `Clean` -/
def clean (inv : Inv) : Res Inv :=
  if inv.modified then .ok inv
  else if inv.head = "v1".toList then .ok inv
  else
    let inv' := { inv with versions := mdel inv.versions inv.head }
    match getLastVersion inv' with
    | [] => .error (.error "cannot get last version")
    | last => .ok { inv' with head := last }

/-- pkg/ocfl/inventorybase.go:201-228 `GetVersionStrings` -/
def getVersionStrings (inv : Inv) : List Str :=
  if inv.versions = [] then []
  else
    match (mkeys inv.versions).mapM vNumber with
    | none => []
    | some nums =>
      (sortInt nums).map (fun n =>
        (((mkeys inv.versions).filter (fun k => decide (vNumber k = some n))).getLast?).getD [])

/-- pkg/ocfl/inventorybase.go:133-140 `Finalize`: `versionValue[ver]`.  The conversion to `uint` is
kept as `Int` (a negative number such as in "v-1" would wrap; such names are rejected by the
regular expressions in `checkVersions`). -/
def versionValue (inv : Inv) (ver : Str) : Option Int :=
  match mget inv.versions ver with
  | none => none
  | some _ => atoi (trimLeft ver "v0".toList)

/-- pkg/ocfl/inventorybase.go:275-285 `VersionLessOrEqual` -/
def versionLessOrEqual (inv : Inv) (v1 v2 : Str) : Bool :=
  match versionValue inv v1, versionValue inv v2 with
  | some a, some b => decide (a ≤ b)
  | _, _ => false

/-- pkg/ocfl/inventorybase.go:779-790 `GetDuplicates` -/
def getDuplicates (inv : Inv) (digest : Str) : List Str :=
  if digest = [] then [] else mgetD inv.manifest digest

/-! ## Histories -/

/-- One call of an exported operation changing an inventory.  (`Clean` is not listed: it is called
only from `EndUpdate` and `Close` behind a check of the modified flag, see `Verif/Model/Session.lean`.) -/
inductive Op where
  | newVersion (msg userName userAddress now : Str)
  | add (names : List Str) (manifestPath : Str) (checksums : AMap Str Str)
  | delete (path : Str)
  | rename (src dest : Str)
  | copy (dest digest : Str)
  | echo (existing : List Str) (pathPrefix : Str)
  deriving DecidableEq, Repr

def step (inv : Inv) : Op → Res Inv
  | .newVersion m u a t => newVersion inv m u a t
  | .add ns mp cs => addFile inv ns mp cs
  | .delete p => deleteFile inv p
  | .rename a b => renameFile inv a b
  | .copy d c => copyFile inv d c
  | .echo ex pre => echoDelete inv ex pre

/-- A history: operations executed one after the other, stopping at the first error. -/
def run (inv : Inv) : List Op → Res Inv
  | [] => .ok inv
  | op :: ops => do run (← step inv op) ops

end Gocfl
