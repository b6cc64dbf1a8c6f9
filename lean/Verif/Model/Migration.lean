import Verif.Model.Metadata

/-!
# Model of the migration extension

pkg/extension/NNNN-migration.go and pkg/subsystem/migration: which files are picked, what is done with them in the version
added for them, and what the records of earlier versions say.
-/

namespace Gocfl

/-- `filepath.Base` -/
def pathBase (p : Str) : Str :=
  if p = [] then ".".toList
  else
    match (((p.reverse.dropWhile (· = '/'))).takeWhile (· ≠ '/')).reverse with
    | [] => "/".toList
    | b => b

/-- `filepath.Dir` -/
def pathDir (p : Str) : Str := pathClean (p.reverse.dropWhile (· ≠ '/')).reverse

/-- pkg/subsystem/migration/migrate.go:15-27 `Strategy` -/
inductive Strategy where
  | replace
  | add
  | folder
  deriving DecidableEq, Repr

/-- pkg/subsystem/migration/migrate.go:29-39 `Function`.  `rename`: `regexp.ReplaceAllString`; `run`: the command
(58-77), with the content of the file it leaves (`none`: it fails or leaves none). -/
structure MigFun where
  strategy : Strategy
  rename : Str → Str
  run : Bytes → Option Bytes
  id : Str

/-- `migrationVersionRegexp` (pkg/subsystem/migration/migrate.go:41, `^([^.]+)\.(.+)$`): the second group -/
def afterDot (b : Str) : Option Str :=
  match b.dropWhile (· ≠ '.') with
  | [] => none
  | _ :: r => if b.takeWhile (· ≠ '.') = [] ∨ r = [] ∨ '\n' ∈ r then none else some r

/-- pkg/subsystem/migration/migrate.go:43-56 `GetDestinationName` -/
def destName (f : MigFun) (head : Str) (migrated : Bool) (src : Str) : Str :=
  match f.strategy with
  | .folder =>
    if migrated then
      match afterDot (pathBase src) with
      | none => []
      | some r => pathJoin [pathDir src, head ++ '.' :: r]
    else pathJoin [src, head ++ '.' :: f.rename src]
  | _ => f.rename src

/-- What migration depends on besides the object: `extractPath` — the manager's `BuildObjectExtractPath(object, ·, "")`;
`readContent` — `object.GetFS().Open` and reading; `sourceFS` — the source folder of the update, if there is one. -/
structure MigWorld where
  w : World
  extractPath : Str → Res Str
  readContent : Str → Option Bytes
  sourceFS : Option (Str → Option Bytes)

/-- pkg/extension/NNNN-migration.go:78-87 `migrationLine` with its `MigrationResult`; `failed`: `Error` is not empty -/
structure MigLine where
  path : Str
  source : Str
  failed : Bool
  id : Str
  deriving DecidableEq, Repr

/-- what is known before the command is run -/
structure MigPlan where
  source : Str
  files : List Str
  targets : List Str
  extract : List Str
  path : Str
  data : Bytes

/-- pkg/extension/NNNN-migration.go:278-312: the content to migrate; `none`: `continue` -/
def migSource (m : MigWorld) (inv : Inv) (cs src : Str) : Res (Option Bytes) :=
  match m.readContent src with
  | some b => .ok (some b)
  | none =>
    match m.sourceFS with
    | none => .ok none
    | some fs =>
      match mget inv.versions inv.head with
      | none => .error (.error "invalid version")
      | some ver =>
        match mget ver.state cs with
        | none => .error (.error "cannot get state files")
        | some files =>
          match files.getLast? with
          | none => .error (.error "zero state file")
          | some f => m.extractPath f >>= fun x =>
              match fs x with
              | none => .error (.error "cannot open file in source filesystem")
              | some b => .ok (some b)

/-- pkg/extension/NNNN-migration.go:256-331 of one file: everything up to `DoMigrate` -/
def migPlan (m : MigWorld) (inv : Inv) (prev : Str) (migrated : Bool) (cs : Str) (f : MigFun) : Res (Option MigPlan) :=
  match mget inv.manifest cs with
  | none => .error (.error "cannot find file with checksum")
  | some man =>
    match mget inv.versions prev with
    | none => .error (.error "invalid version")
    | some ver =>
      match mget ver.state cs with
      | none => .error (.error "no state")
      | some files =>
        if [] ∈ files.map (destName f inv.head migrated) then .error (.error "cannot get destination name")
        else
          match man with
          | [] => .error (.panic "index out of range: manifestFiles[0]")
          | src :: _ =>
            migSource m inv cs src >>= fun c =>
            match c with
            | none => .ok none
            | some data =>
              (files.map (destName f inv.head migrated)).mapM m.extractPath >>= fun ex =>
              match ex with
              | [] => .error (.panic "index out of range: extractTargetNames[0]")
              | e0 :: _ =>
                m.w.manifestPath e0 "content".toList >>= fun mp =>
                .ok (some ⟨src, files, files.map (destName f inv.head migrated), ex, buildManifestName inv mp, data⟩)

/-- pkg/subsystem/migration/helper.go:77-116 `DoMigrate`.  Simplification: temporary files can be written. -/
def doMigrate (m : MigWorld) (o : Obj) (f : MigFun) (p : MigPlan) : Out :=
  match f.run p.data with
  | none => fail o "cannot migrate file"
  | some d => objAddReader m.w o p.extract "content".toList d

/-- pkg/extension/NNNN-migration.go:366-369: where the strategy `folder` puts the original; nowhere (the empty name) if
it is the result of a migration itself -/
def folderDest (migrated : Bool) (src : Str) : Str :=
  if migrated then [] else pathJoin [pathDir src, pathBase src, pathBase src]

/-- pkg/extension/NNNN-migration.go:348-376: what happens to the original after a successful migration -/
def migAfter (f : MigFun) (migrated : Bool) (cs : Str) (p : MigPlan) : List Call :=
  match f.strategy with
  | .add => []
  | .replace => (p.files.filter (fun n => decide (n ∉ p.targets))).map (fun n => .delete n cs)
  | .folder => (p.files.filter (fun n => decide (n ∉ p.targets))).map (fun n => .rename n (folderDest migrated n) cs)

/-- the object, the error and the lines recorded -/
structure MigOut where
  out : Out
  lines : List MigLine

/-- pkg/extension/NNNN-migration.go:241-385, one file that was not migrated before.  The error of a migration is
recorded, nothing else; a panic is not. -/
def migrateOne (m : MigWorld) (prev : Str) (migrated : Bool) (o : Obj) (cs : Str) (f : MigFun) : MigOut :=
  match migPlan m o.inv prev migrated cs f with
  | .error e => ⟨⟨o, some e⟩, []⟩
  | .ok none => ⟨ok o, []⟩
  | .ok (some p) =>
    match doMigrate m o f p with
    | ⟨o1, some (.panic x)⟩ => ⟨⟨o1, some (.panic x)⟩, []⟩
    | ⟨o1, some (.error _)⟩ => ⟨ok o1, [⟨p.path, p.source, true, f.id⟩]⟩
    | ⟨o1, none⟩ => ⟨runCalls m.w o1 (migAfter f migrated cs p), [⟨p.path, p.source, false, f.id⟩]⟩

/-- pkg/extension/NNNN-migration.go:241-386, the loop over `migrationFiles` (`todo`, a map; any order); `results`: the
digests that are results of migrations (222), `before`: the digests in `migratedFiles` -/
def migrateFiles (m : MigWorld) (prev : Str) (results before : List Str) (o : Obj) : List (Str × MigFun) → MigOut
  | [] => ⟨ok o, []⟩
  | (cs, f) :: todo =>
    if cs ∈ before then migrateFiles m prev results before o todo
    else
      match migrateOne m prev (decide (cs ∈ results)) o cs f with
      | ⟨⟨o1, some e⟩, ls⟩ => ⟨⟨o1, some e⟩, ls⟩
      | ⟨⟨o1, none⟩, ls⟩ =>
        let r := migrateFiles m prev results before o1 todo
        ⟨r.out, ls ++ r.lines⟩

/-- pkg/extension/NNNN-migration.go:209-386 `DoNewVersion` up to storing the records, for which see `writeJsonL`
(`Verif/Model/JsonL.lean`) -/
def migrationDo (m : MigWorld) (results before : List Str) (o : Obj) (todo : List (Str × MigFun)) : MigOut :=
  match (getVersionStrings o.inv).reverse with
  | _ :: prev :: _ => migrateFiles m prev results before o todo
  | _ => ⟨fail o "no previous version", []⟩

/-! ### Records of earlier versions -/

def listed (man : DMap) (p : Str) : Bool := man.any (fun e => decide (p ∈ e.2))

/-- pkg/extension/NNNN-migration.go:441-466: one line; the result is stored under the digest of the file that came out of
the migration (of the original if it failed).  The value: the digest of the original and the id of the function. -/
def migMetaLine (man : DMap) (acc : AMap Str (Str × Str)) (l : MigLine) : Res (AMap Str (Str × Str)) :=
  if pathDigest man l.source = [] then .error (.error "cannot find checksum for file")
  else if listed man l.path then .ok (mset acc (pathDigest man l.path) (pathDigest man l.source, l.id))
  else if l.failed && listed man l.source then
    .ok (mset acc (pathDigest man l.source) (pathDigest man l.source, l.id))
  else .error (.error "cannot find checksum for file")

/-- pkg/extension/NNNN-migration.go:407-475 `GetMetadata`, of the lines of all versions -/
def migMeta (man : DMap) (lines : List MigLine) : Res (AMap Str (Str × Str)) := lines.foldlM (migMetaLine man) []

/-- pkg/extension/NNNN-migration.go:163-178: the digests of the originals -/
def migSources (mt : AMap Str (Str × Str)) : List Str := mt.map (fun e => e.2.1)

/-- pkg/extension/NNNN-migration.go:179-197: the files to migrate — every content of the object, whether it is in the head
or not, that was identified, for which there is a function and which is not recorded as migrated.  `pronom`: the indexer's
metadata by digest; `byPronom`: `GetFunctionByPronom`. -/
def migCollect (digests : List Str) (pronom : Str → Option Str) (byPronom : Str → Option MigFun) (before : List Str) :
    List (Str × MigFun) :=
  digests.filterMap (fun d => (pronom d).bind fun p => (byPronom p).bind fun f => if d ∈ before then none else some (d, f))

end Gocfl
