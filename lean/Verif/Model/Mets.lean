import Verif.Model.Metadata
import Verif.Model.Migration

/-!
# Model of the METS extension

pkg/extension/NNNN-mets.go: after each update a METS and a PREMIS document describing the new version are generated and
stored with it.  Modelled: which elements the documents have, their identifiers, references, locations and checksums.  Not
modelled: sizes, media types, names and roles of agents, labels (they are copied from elsewhere), XML itself (`metsXml`, `premisXml`).
-/

namespace Gocfl

/-- pkg/extension/NNNN-content-subpath.go:58-61 `ContentSubPathEntry` -/
structure AreaEntry where
  path : Str
  description : Str
  deriving DecidableEq, Repr

abbrev Areas := AMap Str AreaEntry

/-- pkg/extension/NNNN-mets.go:106-113 `MetsConfig` -/
structure MetsCfg where
  storageType : Str
  storageName : Str
  primary : Str
  metsFile : Str
  premisFile : Str
  deriving DecidableEq, Repr

/-- The identifiers of a document generated with `uuid.NewString()`, by what they are for. -/
inductive Fresh where
  | file (path : Str)
  | group (area : Str)
  | premisInt
  | premisExt
  deriving DecidableEq, Repr

/-- `mets.FLocat` (pkg/extension/NNNN-mets.go:659-672, 722-731): internal — of the object's directory, or external — of the
version -/
structure Loc where
  internal : Bool
  href : Str
  deriving DecidableEq, Repr

/-- `mets.FileType` (pkg/extension/NNNN-mets.go:404-416) -/
structure MFile where
  id : Str
  checksum : Str
  checksumType : Str
  locs : List Loc
  deriving DecidableEq, Repr

/-- `mets.MdSecType` with its `MdRef` (pkg/extension/NNNN-mets.go:1375-1394) -/
structure MdSec where
  id : Str
  loc : Loc
  mdType : Str
  otherType : Str
  checksum : Str
  checksumType : Str
  deriving DecidableEq, Repr

/-- `mets.FileGrp` (pkg/extension/NNNN-mets.go:1075-1083): area, identifier, files -/
structure MGroup where
  area : Str
  id : Str
  files : List MFile
  deriving DecidableEq, Repr

/-- pkg/extension/NNNN-mets.go:1149-1222, 1277-1284: the descriptive sections, the sections of the PREMIS document, the file groups, and
for each area the identifiers listed in both structural maps -/
structure MetsDoc where
  dmd : List MdSec
  amd : List MdSec
  groups : List MGroup
  struct : AMap Str (List Str)
  deriving DecidableEq, Repr

/-- `premis.File` (pkg/extension/NNNN-mets.go:473-487) with its fixity -/
structure PObject where
  id : Str
  fixity : List (Str × Str)
  deriving DecidableEq, Repr

/-- `premis.EventComplexType` (pkg/extension/NNNN-mets.go:422-470, 769-839): packing or migration, when, by whom (of a
packing; not of a migration), the objects it links to -/
structure PEvent where
  migration : Bool
  time : Str
  agent : Str
  links : List Str
  deriving DecidableEq, Repr

/-- `premis.PremisComplexType` (pkg/extension/NNNN-mets.go:1004-1061) -/
structure PremisDoc where
  objects : List PObject
  events : List PEvent
  deriving DecidableEq, Repr

/-- What the extension depends on besides the object.  `areas` — what the content-subpath extension reports (`none`: a nil
map, `some []`: no such extension); `areaPath` — `GetAreaPath` of the manager; `migration` — `MigrationResult` (source and
whether it failed) among what extensions report; `folder` — its folder below `extensions/`;
`version` — the OCFL version of the object; `uuid`; `slug` — `slug.Make`;
`format` — `fmt.Sprintf` of a pattern with verbs; `sha512`; the encodings and the schemas. -/
structure MetsEnv (V : Type) where
  w : World
  cfg : MetsCfg
  areas : Option Areas
  areaPath : Str → Res Str
  migration : V → Option (Str × Bool)
  folder : Str
  version : Str
  uuid : Fresh → Str
  slug : Str → Str
  format : Str → Str → Str
  sha512 : Bytes → Str
  metsXml : MetsDoc → Bytes
  premisXml : PremisDoc → Bytes
  schemas : List (Str × Bytes)

/-- `strings.ToUpper`, ASCII only -/
def toUpper (s : Str) : Str := s.map Char.toUpper

/-- pkg/extension/NNNN-mets.go:178-197 `checksumTypeToMets` -/
def checksumTypeToMets (t : Str) : Str :=
  let u := toUpper t
  if u = "SHA512".toList then "SHA-512".toList
  else if u = "SHA384".toList then "SHA-384".toList
  else if u = "SHA256".toList then "SHA-256".toList
  else if u = "SHA1".toList then "SHA-1".toList
  else if u = "ADLER32".toList then "ADLER-32".toList
  else if u ∈ ["CRC32".toList, "MD5".toList, "MNP".toList, "TIGER".toList, "WHIRLPOOL".toList] then u
  else []

/-- pkg/extension/NNNN-mets.go:1368-1395 `newMDSec` -/
def newMdSec (id : Str) (loc : Loc) (mdType other checksum checksumType : Str) : MdSec :=
  let t := if mdType = [] then "OTHER".toList else mdType
  ⟨id, loc, t, if t = "OTHER".toList ∧ other = [] then "UNKNOWN".toList else other, checksum, checksumTypeToMets checksumType⟩

/-- pkg/extension/NNNN-mets.go:619-630 and 692-701: the area of a folder, and whether the next component says it is a schema.
The loop over a Go map takes the first entry in the order given. -/
def areaOf (areas : Option Areas) (folder next : Str) : Str × Bool :=
  match areas with
  | none => ("content".toList, false)
  | some as =>
    match as.find? (fun e => decide (e.2.path = folder)) with
    | some e => (e.1, decide (next = "schemas".toList))
    | none => (folder, false)

/-- pkg/extension/NNNN-mets.go:608-631: the area of a content path; `none`: the function returns nil (`errors.Wrapf` of a nil
error is nil, lines 610 and 613) -/
def intArea (areas : Option Areas) (p : Str) : Option (Str × Bool) :=
  match splitOn '/' p with
  | _ :: c :: a :: rest =>
    if c ≠ "content".toList then none
    else
      match rest with
      | [] => some ("content".toList, false)
      | n :: _ => some (areaOf areas a n)
  | _ => none

/-- pkg/extension/NNNN-mets.go:688-702: the area of a logical path -/
def extArea (areas : Option Areas) (q : Str) : Str × Bool :=
  match splitOn '/' q with
  | a :: n :: _ => areaOf areas a n
  | _ => ("content".toList, false)

/-- the files of an area that are described as metadata, not as files (pkg/extension/NNNN-mets.go:632, 703) -/
def isMeta (a : Str × Bool) : Prop := a.1 = "metadata".toList ∧ a.2 = false

instance (a : Str × Bool) : Decidable (isMeta a) := inferInstanceAs (Decidable (_ ∧ _))

/-- the key of the structural map and of the file groups (pkg/extension/NNNN-mets.go:649-653, 843-847) -/
def areaKey (a : Str × Bool) : Str := if a.2 then "schemas".toList else a.1

/-- `m[a] = append(m[a], x)` -/
def mappend {α : Type} (m : AMap Str (List α)) (a : Str) (x : α) : AMap Str (List α) :=
  mset m a ((mget m a).getD [] ++ [x])

/-- what the loop over the files collects (pkg/extension/NNNN-mets.go:325-345) -/
structure MetsSt where
  dmd : List MdSec
  struct : AMap Str (List Str)
  files : AMap Str (List MFile)
  objects : List PObject
  events : List PEvent

/-- pkg/extension/NNNN-mets.go:607-685: the content paths of a file; the result with its locations -/
def metsInternal (areas : Option Areas) (alg id cs : Str) : List Str → MetsSt → List Loc → Option (MetsSt × List Loc)
  | [], st, locs => some (st, locs)
  | p :: ps, st, locs =>
    match intArea areas p with
    | none => none
    | some a =>
      if isMeta a then
        metsInternal areas alg id cs ps
          { st with dmd := st.dmd ++ [newMdSec ("dmdSec-int-".toList ++ id) ⟨true, p⟩ [] [] cs alg] } locs
      else
        metsInternal areas alg id cs ps { st with struct := mappend st.struct (areaKey a) id } (locs ++ [⟨true, p⟩])

/-- a file of the head version: digest, metadata, logical path -/
structure MEntry (V : Type) where
  cs : Str
  file : FileMeta V
  path : Str

/-- pkg/extension/NNNN-mets.go:380-382: the files the loops run over -/
def metsEntries {V : Type} (m : ObjMeta V) : List (MEntry V) :=
  m.files.flatMap (fun e => ((mget e.2.versionName m.head).getD []).map (fun q => ⟨e.1, e.2, q⟩))

/-- the identifier of a file (pkg/extension/NNNN-mets.go:364-367, 383); a path has one, as `internalFiledata` is a map of
paths -/
def fileId {V : Type} (x : MetsEnv V) (path : Str) : Str := "uuid-".toList ++ x.uuid (.file path)

/-- the map `internalFiledata` (pkg/extension/NNNN-mets.go:351-378): logical path and digest -/
def metsFiledata {V : Type} (m : ObjMeta V) : AMap Str Str :=
  (metsEntries m).foldl (fun a e => mset a e.path e.cs) []

/-- the event of a file in a version (pkg/extension/NNNN-mets.go:417-471) -/
def packingEvent {V : Type} (m : ObjMeta V) (id v : Str) : PEvent :=
  match mget m.versions v with
  | some ver => ⟨false, ver.created, ver.address, [id]⟩
  | none => ⟨false, [], [], [id]⟩

/-- pkg/extension/NNNN-mets.go:760-841: the event of a migration that made the file.  What the extension reports is taken to be a
`MigrationResult` (else the function returns nil, line 767).  Its time is that of the head version (761, 781). -/
def migrationEvent {V : Type} (x : MetsEnv V) (m : ObjMeta V) (e : MEntry V) : List PEvent :=
  match (mget e.file.ext "NNNN-migration".toList).bind x.migration with
  | none => []
  | some (source, failed) =>
    let src := match (metsFiledata m).find? (fun y => decide (y.2 = source)) with
      | some y => [fileId x y.1]
      | none => []
    [⟨true, ((mget m.versions m.head).map VersionMeta.created).getD [], [], src ++ if failed then [] else [fileId x e.path]⟩]

/-- the fixity of a file in the PREMIS document (pkg/extension/NNNN-mets.go:489-500, 564-568, 587-606): only if the indexer
knows the file -/
def premisFixity {V : Type} (m : ObjMeta V) (e : MEntry V) : List (Str × Str) :=
  if (mget e.file.ext "NNNN-indexer".toList).isSome then (m.alg, e.cs) :: e.file.checksums else []

/-- pkg/extension/NNNN-mets.go:382-850: one file of the version.  `none`: the function returns without an error. -/
def metsFileStep {V : Type} (x : MetsEnv V) (m : ObjMeta V) (own : List Str) (st : MetsSt) (e : MEntry V) :
    Res (Option MetsSt) :=
  let id := fileId x e.path
  if e.file.versionName.any (fun v => (mget m.versions v.1).isNone) then .error (.error "cannot find version")
  else
    let st := { st with events := st.events ++ e.file.versionName.map (fun v => packingEvent m id v.1) }
    match metsInternal x.areas m.alg id e.cs e.file.internal st [] with
    | none => .ok none
    | some (st, locs) =>
      let a := extArea x.areas e.path
      if isMeta a then
        if e.path ∈ own then .ok (some st)
        else .ok (some { st with dmd := st.dmd ++ [newMdSec ("dmdSec-ext-".toList ++ id) ⟨false, e.path⟩ [] [] e.cs m.alg] })
      else
        .ok (some { st with
          files := mappend st.files (areaKey a) ⟨id, e.cs, "SHA-512".toList, locs ++ [⟨false, e.path⟩]⟩
          events := st.events ++ migrationEvent x m e
          objects := st.objects ++ [⟨id, premisFixity m e⟩] })

/-- the loop (pkg/extension/NNNN-mets.go:380-852) -/
def metsFiles {V : Type} (x : MetsEnv V) (m : ObjMeta V) (own : List Str) : List (MEntry V) → MetsSt → Res (Option MetsSt)
  | [], st => .ok (some st)
  | e :: es, st =>
    match metsFileStep x m own st e with
    | .error er => .error er
    | .ok none => .ok none
    | .ok (some st') => metsFiles x m own es st'

/-- the areas that are there from the beginning (pkg/extension/NNNN-mets.go:333-337, 352-357) -/
def knownAreas (areas : Option Areas) : List Str :=
  ["schemas".toList, "content".toList, "metadata".toList] ++ mkeys (areas.getD [])

/-- `metsMDTypes` (pkg/extension/NNNN-mets.go:39-62) -/
def metsMdTypes : List Str :=
  ["MARC", "MODS", "EAD", "DC", "NISOIMG", "LC-AV", "VRA", "TEIHDR", "DDI", "FGDC", "LOM", "PREMIS", "PREMIS:OBJECT",
   "PREMIS:AGENT", "PREMIS:RIGHTS", "PREMIS:EVENT", "TEXTMD", "METSRIGHTS", "ISO 19115:2003 NAP", "EAC-CPF", "LIDO",
   "OTHER"].map String.toList

/-- pkg/extension/NNNN-mets.go:859-883: type and name of the file with the primary descriptive metadata -/
def primaryName (areas : Option Areas) (s : Str) : Res (Str × Str) :=
  match splitOn ':' s with
  | [t, n] =>
    if areas.getD [] = [] then .ok (t, pathClean n)
    else
      match mget (areas.getD []) "content".toList with
      | some e => .ok (t, pathJoin [e.path, n])
      | none => .error (.error "cannot find content sub path")
  | [t, a, n] =>
    match mget (areas.getD []) a with
    | some e => .ok (t, pathJoin [e.path, n])
    | none => .error (.error "cannot find content sub path")
  | _ => .error (.error "invalid descriptive metadata")

/-- pkg/extension/NNNN-mets.go:884-899: the first file with that name -/
def findPrimary {V : Type} (m : ObjMeta V) (name : Str) : Option (Str × FileMeta V) :=
  m.files.find? (fun e => decide (name ∈ (mget e.2.versionName m.head).getD []))

/-- type and other type of the primary metadata (pkg/extension/NNNN-mets.go:904-909) -/
def primaryType (t : Str) : Str × Str :=
  if toUpper t ∈ metsMdTypes then (toUpper t, []) else ("OTHER".toList, toUpper t)

/-- pkg/extension/NNNN-mets.go:854-995: the primary descriptive metadata -/
def metsPrimary {V : Type} (x : MetsEnv V) (m : ObjMeta V) (st : MetsSt) : Res MetsSt :=
  if x.cfg.primary = [] then .ok st
  else
    primaryName x.areas x.cfg.primary >>= fun tn =>
    match findPrimary m tn.2 with
    | none => .error (.error "cannot find descriptive metadata file")
    | some (cs, f) =>
      let kept := st.dmd.filter (fun s => decide (s.checksum ≠ cs))
      let ty := primaryType tn.1
      let idOf := fun (pre : String) => pre.toList ++ (x.slug m.id ++ '-' :: m.head)
      let int := (f.internal.take 1).map (fun p => newMdSec (idOf "dmdSec-int-") ⟨true, p⟩ ty.1 ty.2 cs m.alg)
      let ext := (((mget f.versionName m.head).getD []).take 1).map
        (fun q => newMdSec (idOf "dmdSec-ext-") ⟨false, q⟩ ty.1 ty.2 cs m.alg)
      let add := fun (a : AMap Str (List Str)) (s : MdSec) => mappend a "metadata".toList s.id
      .ok { st with dmd := kept ++ (int ++ ext), struct := (kept ++ (int ++ ext)).foldl add st.struct }

/-- The names of a document: external, internal (as written to the METS document). -/
structure DocNames where
  ext : Str
  int : Str
  deriving DecidableEq, Repr

/-- `object.BuildNames` (pkg/ocfl/objectbase.go:713-734) -/
def docNames (w : World) (file area : Str) : Res DocNames :=
  w.statePath file area >>= fun e => w.manifestPath file area >>= fun i => .ok ⟨e, i⟩

/-- `fmt.Sprintf(pattern, object.GetVersion())` (pkg/extension/NNNN-mets.go:292, 298, 1344, 1345) -/
def withVersion {V : Type} (x : MetsEnv V) (pattern : Str) : Str :=
  if '%' ∈ pattern then x.format pattern x.version
  else pattern ++ ("%!(EXTRA ocfl.OCFLVersion=".toList ++ (x.version ++ ")".toList))

/-- the file and area a document is added as, with storage type `area` or `path` (pkg/extension/NNNN-mets.go:267-290,
1293-1322) -/
def docFile {V : Type} (x : MetsEnv V) (file : Str) : Res (Str × Str) :=
  if toLower x.cfg.storageType = "area".toList then .ok (file, x.cfg.storageName)
  else
    x.areaPath "content".toList >>= fun path =>
    .ok (trimLeft (pathJoin [path, x.cfg.storageName, file]) "/".toList, [])

/-- its name below the folder of the extension, with storage type `extension`
(pkg/extension/NNNN-mets.go:292, 298, 1344, 1345) -/
def docExtFile {V : Type} (x : MetsEnv V) (file : Str) : Str :=
  trimLeft (pathJoin [x.cfg.storageName, withVersion x file]) "/".toList

/-- pkg/extension/NNNN-mets.go:264-306 -/
def docNamesOf {V : Type} (x : MetsEnv V) (file : Str) : Res DocNames :=
  if toLower x.cfg.storageType = "area".toList ∨ toLower x.cfg.storageType = "path".toList then
    docFile x file >>= fun f => docNames x.w f.1 f.2
  else if toLower x.cfg.storageType = "extension".toList then .ok ⟨file, docExtFile x file⟩
  else .error (.error "unsupported storage type")

/-- the identifier of a file group (pkg/extension/NNNN-mets.go:333-337, 356, 1079): one that is not known beforehand
has none -/
def groupId {V : Type} (x : MetsEnv V) (area : Str) : Str :=
  "uuid-".toList ++ if area ∈ knownAreas x.areas then x.uuid (.group area) else []

/-- pkg/extension/NNNN-mets.go:1070-1126, 1149-1174: the document -/
def metsDoc {V : Type} (x : MetsEnv V) (premis : DocNames) (st : MetsSt) (premisSum : Str) : MetsDoc :=
  let i := newMdSec ("amdSec-int-uuid-".toList ++ x.uuid .premisInt) ⟨true, premis.int⟩ "PREMIS".toList [] premisSum
    "SHA-512".toList
  let e := newMdSec ("amdSec-ext-uuid-".toList ++ x.uuid .premisExt) ⟨false, premis.ext⟩ "PREMIS".toList [] premisSum
    "SHA-512".toList
  ⟨st.dmd, [i, e], (st.files.filter (fun g => decide (g.2 ≠ []))).map (fun g => ⟨g.1, groupId x g.1, g.2⟩),
   (mappend (mappend st.struct "metadata".toList i.id) "metadata".toList e.id).filter (fun g => decide (g.2 ≠ []))⟩

/-- pkg/extension/NNNN-mets.go:231-1287: the two documents; `none`: the function returns before -/
def metsDocs {V : Type} (x : MetsEnv V) (m : ObjMeta V) : Res (Option (MetsDoc × PremisDoc)) :=
  if (mget m.versions m.head).isNone then .ok none
  else
    docNamesOf x x.cfg.metsFile >>= fun mn =>
    docNamesOf x x.cfg.premisFile >>= fun pn =>
    metsFiles x m [mn.ext, pn.ext] (metsEntries m) ⟨[], [], [], [], []⟩ >>= fun r =>
    match r with
    | none => .ok none
    | some st =>
      metsPrimary x m st >>= fun st =>
      let p : PremisDoc := ⟨st.objects, st.events⟩
      .ok (some (metsDoc x pn st (x.sha512 (x.premisXml p)), p))

/-- the schemas, added in the area `area` (pkg/extension/NNNN-mets.go:1305-1315, 1332-1342) -/
def addSchemas (w : World) (area : Str) : List (Str × Bytes) → Obj → Out
  | [], o => ok o
  | s :: ss, o => (objAdd w o s.1 area s.2 true).andThen (addSchemas w area ss)

/-- pkg/extension/NNNN-mets.go:1292-1363: the documents are written.  With the storage type `extension` the METS document is
written under both names (line 1349). -/
def metsStore {V : Type} (x : MetsEnv V) (o : Obj) (mets premis : Bytes) : Out :=
  if toLower x.cfg.storageType = "extension".toList then
    let file := fun (f : Str) => extPath (x.folder ++ '/' :: f)
    ok (o.write (writeFile (file (docExtFile x x.cfg.metsFile)) mets ++
      (writeFile (file (docExtFile x x.cfg.premisFile)) mets ++
        x.schemas.flatMap (fun s => writeFile (file s.1) s.2))))
  else
    match docFile x x.cfg.metsFile with
    | .error e => ⟨o, some e⟩
    | .ok mf =>
      match docFile x x.cfg.premisFile with
      | .error e => ⟨o, some e⟩
      | .ok pf =>
        (objAdd x.w o mf.1 mf.2 mets false).andThen fun o =>
        (objAddReader x.w o [pf.1] pf.2 premis).andThen fun o =>
        addSchemas x.w mf.2 x.schemas o

/-- pkg/extension/NNNN-mets.go:224-1366 `UpdateObjectAfter`; `exts`: what the extensions report -/
def metsAfter {V : Type} (x : MetsEnv V) (exts : List (Str × Res (AMap Str V))) (o : Obj) : Out :=
  match objMetadata o.inv exts >>= fun m => metsDocs x m with
  | .error e => ⟨o, some e⟩
  | .ok none => ok o
  | .ok (some (md, pd)) => metsStore x o (x.metsXml md) (x.premisXml pd)

end Gocfl
