import Verif.Model.Load

/-!
# Model of the settings: command line, configuration file, parameters of the extensions, and what they are used for
(`config/config.go`, `gocfl/cmd/root.go:120-217`, the functions `initXxx` and `doXxxConf` of `gocfl/cmd`,
`pkg/ocfl/extensionExternalParam.go`, `gocfl/cmd/helper.go:154-274`)

Simplifications: the configuration file is given decoded (the library reading TOML is not modelled): for each setting the
value it has in the file, if any.  The command line is given parsed (the library for flags is not modelled): for each flag
the value given, if any; a flag the command does not have is refused by that library and does not occur.  Settings of the
indexer, of migrations and thumbnails, and of the logger other than file and level are left out.
-/

namespace Gocfl

/-- the commands (gocfl/cmd/root.go:216) -/
inductive Command
  | validate | init | create | add | update | stat | extract | extractmeta | display
  deriving DecidableEq, Repr

/-- `cmd.Name()`: the first word of `Use` -/
def Command.name : Command → Str
  | .validate => "validate".toList
  | .init => "init".toList
  | .create => "create".toList
  | .add => "add".toList
  | .update => "update".toList
  | .stat => "stat".toList
  | .extract => "extract".toList
  | .extractmeta => "extractmeta".toList
  | .display => "display".toList

/-- the settings that are texts: the fields of `GOCFLConfig` (config/config.go:12-136) -/
inductive Setting
  | logFile | logLevel | s3Endpoint | s3Region | s3KeyId | s3Key | defaultArea
  | initVersion | initExtensions | initDigest
  | addExtensions | addUserName | addUserAddress | addDigest | addMessage
  | updUserName | updUserAddress | updMessage | updDigest
  | extractPath | extractId | extractVersion | extractArea
  | metaPath | metaId | metaVersion | metaFormat | metaOutput
  | statPath | statId | validatePath | validateId
  | dispAddr | dispExternal | dispTemplates | dispCert | dispKey
  deriving DecidableEq, Repr

/-- the settings that are switches -/
inductive Switch
  | aes | addDeduplicate | addNoCompress | updDeduplicate | updNoCompress | updEcho | extractManifest
  deriving DecidableEq, Repr

/-- `GOCFLConfig` (config/config.go:117-136) -/
structure Conf where
  str : Setting → Str
  on : Switch → Bool
  fixity : List Str
  info : List Str
  ext : AMap Str (AMap Str Str)

/-- a decoded configuration file: what is in it -/
structure ConfFile where
  str : AMap Setting Str := []
  on : AMap Switch Bool := []
  fixity : Option (List Str) := none
  info : Option (List Str) := none
  ext : AMap Str (AMap Str Str) := []

/-- config/config.go:139-209: the values before the file is decoded -/
def builtinStr : Setting → Str
  | .logLevel => "ERROR".toList
  | .defaultArea => "content".toList
  | .addMessage => "initial add".toList
  | .addDigest => "sha512".toList
  | .dispAddr => "localhost:80".toList
  | .dispExternal => "http://localhost:80/".toList
  | .extractVersion => "latest".toList
  | .metaVersion => "latest".toList
  | .metaFormat => "json".toList
  | .initVersion => "1.1".toList
  | _ => []

def builtinOn : Switch → Bool
  | .addNoCompress => true
  | .updDeduplicate => true
  | .updNoCompress => true
  | _ => false

def builtinInfo : List Str :=
  ["ExtensionConfigs", "Objects", "ObjectVersionState", "ObjectManifest", "ObjectFolders", "Extension", "ObjectVersions",
   "ObjectExtension", "ObjectExtensionConfigs"].map String.toList

/-- `LoadGOCFLConfig` (config/config.go:138-216) -/
def loadConf (file : ConfFile) : Conf :=
  { str := fun s => (mget file.str s).getD (builtinStr s)
    on := fun s => (mget file.on s).getD (builtinOn s)
    fixity := file.fixity.getD []
    info := file.info.getD builtinInfo
    ext := file.ext }

/-- what is given on the command line -/
structure Given where
  str : AMap Str Str := []
  on : AMap Str Bool := []

/-- the defaults of the flags that are not empty (gocfl/cmd/create.go:41, extract.go:37, extractmeta.go:36-37,
display.go:47-48) -/
def flagDefault (c : Command) (f : Str) : Str :=
  match c with
  | .create => if f = "ocfl-version".toList then "1.1".toList else []
  | .extract => if f = "area".toList then "content".toList else []
  | .extractmeta =>
    if f = "version".toList then "latest".toList else if f = "format".toList then "json".toList else []
  | .display =>
    if f = "display-addr".toList then "localhost:8080".toList
    else if f = "display-external-addr".toList then "http://localhost:8080".toList else []
  | _ => []

/-- `getFlagString` (gocfl/cmd/root.go:120-127) -/
def flagStr (c : Command) (g : Given) (f : String) : Str := (mget g.str f.toList).getD (flagDefault c f.toList)

/-- `getFlagBool` (gocfl/cmd/root.go:129-136); the default of every switch is false -/
def flagOn (g : Given) (f : String) : Bool := (mget g.on f.toList).getD false

/-- `if str := …; str != "" { conf.X = str }` -/
def overlay (k : Conf) (s : Setting) (v : Str) : Conf :=
  if v = [] then k else { k with str := fun t => if t = s then v else k.str t }

def setOn (k : Conf) (s : Switch) (b : Bool) : Conf := { k with on := fun t => if t = s then b else k.on t }

/-- `if b := …; b { conf.X = b }` -/
def switchOn (k : Conf) (s : Switch) (b : Bool) : Conf := if b then setOn k s b else k

/-- `if b := …; b { conf.X = !b }` -/
def switchOff (k : Conf) (s : Switch) (b : Bool) : Conf := if b then setOn k s (!b) else k

/-- `if conf.X == "" { conf.X = … }` -/
def ifEmpty (k : Conf) (s : Setting) (v : Str) : Conf := if k.str s = [] then overlay k s v else k

/-- `initConfig` (gocfl/cmd/root.go:138-192), after the file has been read -/
def initConf (c : Command) (g : Given) (k : Conf) : Conf :=
  let k := overlay k .logFile (flagStr c g "log-file")
  let k := overlay k .logLevel (flagStr c g "log-level")
  let k := overlay k .s3Endpoint (flagStr c g "s3-endpoint")
  let k := overlay k .s3Region (flagStr c g "s3-region")
  let k := overlay k .s3KeyId (flagStr c g "s3-access-key-id")
  overlay k .s3Key (flagStr c g "s3-secret-access-key")

/-- gocfl/cmd/init.go:39-50 -/
def initTexts (c : Command) (g : Given) (k : Conf) : Conf :=
  let k := overlay k .initExtensions (flagStr c g "default-storageroot-extensions")
  let k := overlay k .initVersion (flagStr c g "ocfl-version")
  overlay k .initDigest (flagStr c g "digest")

/-- `doInitConf` (gocfl/cmd/init.go:38-56); `known` tells the digest algorithms (`checksum.GetHash`) -/
def doInitConf (known : Str → Bool) (c : Command) (g : Given) (k : Conf) : Res Conf :=
  let k := initTexts c g k
  if known (k.str .initDigest) then .ok k else .error (.error "invalid digest")

/-- gocfl/cmd/add.go:53-58 -/
def fixityTexts (c : Command) (g : Given) (k : Conf) : Conf :=
  let v := flagStr c g "fixity"
  if v = [] then k else { k with fixity := k.fixity ++ splitOn ',' v }

/-- gocfl/cmd/add.go:60, 183: `strings.TrimSpace(strings.ToLower(alg))` -/
def algName (a : Str) : Str := trimSpace (toLower a)

/-- gocfl/cmd/add.go:181-188, create.go:138-148: the algorithms for fixity -/
def fixityAlgs (k : Conf) : List Str := (k.fixity.map algName).filter (fun a => decide (a ≠ []))

/-- gocfl/cmd/add.go:70-90 -/
def addTexts (c : Command) (g : Given) (k : Conf) : Conf :=
  let k := overlay k .addUserName (flagStr c g "user-name")
  let k := overlay k .addUserAddress (flagStr c g "user-address")
  let k := overlay k .addMessage (flagStr c g "message")
  let k := overlay k .addExtensions (flagStr c g "default-object-extensions")
  let k := switchOn k .addDeduplicate (flagOn g "deduplicate")
  let k := switchOn k .addNoCompress (flagOn g "no-compress")
  let k := overlay k .addDigest (flagStr c g "digest")
  ifEmpty k .addDigest "sha512".toList

/-- `doAddConf` (gocfl/cmd/add.go:52-99) -/
def doAddConf (known : Str → Bool) (c : Command) (g : Given) (k : Conf) : Res Conf :=
  let k := fixityTexts c g k
  if (fixityAlgs k).all known then
    let k := addTexts c g k
    if known (k.str .addDigest) then .ok k else .error (.error "invalid digest")
  else .error (.error "invalid fixity")

/-- gocfl/cmd/update.go:53-82 -/
def updateTexts (c : Command) (g : Given) (k : Conf) : Conf :=
  let k := overlay k .updUserName (flagStr c g "user-name")
  let k := overlay k .updUserAddress (flagStr c g "user-address")
  let k := overlay k .updMessage (flagStr c g "message")
  let k := overlay k .updDigest (flagStr c g "digest")
  let k := ifEmpty k .updDigest "sha512".toList
  let k := switchOff k .updDeduplicate (flagOn g "no-deduplicate")
  let k := switchOn k .updNoCompress (flagOn g "no-compress")
  switchOn k .updEcho (flagOn g "echo")

/-- `doUpdateConf` (gocfl/cmd/update.go:52-84) -/
def doUpdateConf (known : Str → Bool) (c : Command) (g : Given) (k : Conf) : Res Conf :=
  let k := updateTexts c g k
  if known (k.str .updDigest) then .ok k else .error (.error "invalid digest")

/-- path and id may not both be set (gocfl/cmd/extract.go:113-117, extractmeta.go:110-114, stat.go:104-108,
validate.go:123-127) -/
def oneObject (path id : Setting) (k : Conf) : Res Conf :=
  if k.str path ≠ [] ∧ k.str id ≠ [] then .error (.error "do not use object-path AND object-id at the same time") else .ok k

/-- `doExtractConf` (gocfl/cmd/extract.go:39-58) -/
def extractConf (c : Command) (g : Given) (k : Conf) : Conf :=
  let k := overlay k .extractPath (flagStr c g "object-path")
  let k := overlay k .extractId (flagStr c g "object-id")
  let k := switchOn k .extractManifest (flagOn g "with-manifest")
  let k := overlay k .extractVersion (flagStr c g "version")
  let k := overlay k .extractArea (flagStr c g "area")
  ifEmpty k .extractVersion "latest".toList

/-- `doExtractMetaConf` (gocfl/cmd/extractmeta.go:41-60) -/
def extractMetaConf (c : Command) (g : Given) (k : Conf) : Conf :=
  let k := overlay k .metaPath (flagStr c g "object-path")
  let k := overlay k .metaId (flagStr c g "object-id")
  let k := overlay k .metaVersion (flagStr c g "version")
  let k := ifEmpty k .metaVersion "latest".toList
  let k := overlay k .metaFormat (flagStr c g "format")
  overlay k .metaOutput (flagStr c g "output")

/-- `doStatConf` (gocfl/cmd/stat.go:44-57) -/
def statConf (c : Command) (g : Given) (k : Conf) : Conf :=
  let k := overlay k .statPath (flagStr c g "object-path")
  let k := overlay k .statId (flagStr c g "object-id")
  let v := flagStr c g "stat-info"
  if v = [] then k else { k with info := (splitOn ',' v).map (fun s => toLower (trimSpace s)) }

/-- `doValidateConf` (gocfl/cmd/validate.go:34-41) -/
def validateConf (c : Command) (g : Given) (k : Conf) : Conf :=
  let k := overlay k .validatePath (flagStr c g "object-path")
  overlay k .validateId (flagStr c g "object-id")

/-- `doDisplayConf` (gocfl/cmd/display.go:54-70) -/
def displayConf (c : Command) (g : Given) (k : Conf) : Conf :=
  let k := overlay k .dispAddr (flagStr c g "display-addr")
  let k := overlay k .dispExternal (flagStr c g "display-external-addr")
  let k := overlay k .dispTemplates (flagStr c g "display-templates")
  let k := overlay k .dispCert (flagStr c g "display-tls-cert")
  overlay k .dispKey (flagStr c g "display-tls-key")

/-- The configuration a command works with: `initConfig`, then what the command reads from its flags (gocfl/cmd/add.go:119-122,
163, create.go:115-116, extractmeta.go:115-120 and the functions above). -/
def settle (known : Str → Bool) (c : Command) (file : ConfFile) (g : Given) : Res Conf :=
  let k := initConf c g (loadConf file)
  match c with
  | .init => doInitConf known c g k
  | .create => doInitConf known c g k >>= fun k => doAddConf known c g k
  | .add =>
    if k.str .logLevel ∈ ["DEBUG", "ERROR", "WARNING", "INFO", "CRITICAL"].map String.toList then doAddConf known c g k
    else .error (.error "invalid log level")
  | .update => doUpdateConf known c g k
  | .extract => oneObject .extractPath .extractId (extractConf c g k)
  | .extractmeta =>
    oneObject .metaPath .metaId (extractMetaConf c g k) >>= fun k =>
    if toLower (k.str .metaFormat) = "json".toList then .ok k else .error (.error "invalid format")
  | .stat => oneObject .statPath .statId (statConf c g k)
  | .validate => oneObject .validatePath .validateId (validateConf c g k)
  | .display => .ok (displayConf c g k)

/-! ## Parameters of the extensions -/

/-- `ExtensionExternalParam` (pkg/ocfl/extensionExternalParam.go:10-17); the default is never set -/
structure ExtParam where
  ext : Str
  param : Str
  functions : List Str

/-- `GetExtensionParams` (gocfl/cmd/helper.go:154-163) with `GetIndexerParams`, `GetMetaFileParams`, `GetMetsParams`,
`GetContentSubPathParams` (pkg/extension/NNNN-indexer.go:36-45, NNNN-metafile.go:27-44, NNNN-mets.go:64-73,
NNNN-content-subpath.go:19-29) -/
def extParams : List ExtParam :=
  [⟨"NNNN-indexer".toList, "addr".toList, []⟩,
   ⟨"NNNN-metafile".toList, "source".toList, ["add", "update", "create"].map String.toList⟩,
   ⟨"NNNN-metafile".toList, "target".toList, ["extract", "objectextension"].map String.toList⟩,
   ⟨"NNNN-mets".toList, "descriptive-metadata".toList, ["add", "update", "create"].map String.toList⟩,
   ⟨"NNNN-content-subpath".toList, "area".toList, ["extract".toList]⟩]

/-- `GetCobraName` (pkg/ocfl/extensionExternalParam.go:45-48) -/
def ExtParam.flag (p : ExtParam) : Str := "ext-".toList ++ (p.ext ++ '-' :: p.param)

/-- `GetParam` (pkg/ocfl/extensionExternalParam.go:27-43) -/
def ExtParam.get (p : ExtParam) (c : Command) (g : Given) (k : Conf) : Option (Str × Str) :=
  if c.name ∈ p.functions then
    let v := (mget g.str p.flag).getD []
    let inFile := (mget ((mget k.ext p.ext).getD []) p.param).getD []
    some (p.flag, if inFile ≠ [] then inFile else v)
  else none

/-- `GetExtensionParamValues` (gocfl/cmd/helper.go:165-175) -/
def paramValues (c : Command) (g : Given) (k : Conf) : AMap Str Str :=
  (extParams.filterMap (fun p => p.get c g k)).foldl (fun m e => mset m e.1 e.2) []

/-- `(*Mets).SetParams` (pkg/extension/NNNN-mets.go:138-146): `own` is the value in the configuration of the extension -/
def metsPrimaryParam (own : Str) (params : AMap Str Str) : Str :=
  (mget params "ext-NNNN-mets-descriptive-metadata".toList).getD own

/-- `(*MetaFile).SetParams` (pkg/extension/NNNN-metafile.go:134-146), the text of the address -/
def metafileSource (params : AMap Str Str) : Option Str := mget params "ext-NNNN-metafile-source".toList

/-- `(*ContentSubPath).SetParams` (pkg/extension/NNNN-content-subpath.go:97-104) -/
def subpathArea (params : AMap Str Str) : Str :=
  let v := (mget params "ext-NNNN-content-subpath-area".toList).getD []
  if v = [] then "content".toList else v

/-- the area the extension works with (pkg/extension/NNNN-content-subpath.go:127-129, 164-166, 180-182) -/
def effectiveArea (params : AMap Str Str) (area : Str) : Str := if area = [] then subpathArea params else area

/-- the area `extract` asks for, as the extension sees it (gocfl/cmd/extract.go:169) -/
def extractedArea (c : Command) (g : Given) (k : Conf) : Str := effectiveArea (paramValues c g k) (k.str .extractArea)

/-! ## What the settings are used for -/

/-- what a storage root is opened as -/
inductive Opened
  | folder | s3 | zip (writable encrypted compressed : Bool)
  deriving DecidableEq, Repr

/-- What is given to `initializeFSFactory`: encryption, S3 endpoint, no compression, read only. -/
structure FactoryArgs where
  aes : Bool := false
  s3 : Str := []
  noCompress : Bool := true
  readOnly : Bool := false

/-- gocfl/cmd/init.go:104, create.go:150, add.go:194, update.go:152, stat.go:131, display.go:120, validate.go:98,
extract.go:121, extractmeta.go:125 -/
def factoryArgs (c : Command) (k : Conf) : FactoryArgs :=
  match c with
  | .init => { aes := k.on .aes, s3 := k.str .s3Endpoint }
  | .create => { aes := k.on .aes, s3 := k.str .s3Endpoint, noCompress := k.on .addNoCompress }
  | .add => { noCompress := k.on .addNoCompress }
  | .update => { noCompress := k.on .updNoCompress }
  | .stat => {}
  | .validate => {}
  | .display => { readOnly := true }
  | .extract => { readOnly := true }
  | .extractmeta => { readOnly := true }

/-- `initializeFSFactory` and `Factory.Get` (gocfl/cmd/helper.go:208-274): the first pattern that fits, by priority.
`isS3` is the pattern of S3 addresses (of a dependency). -/
def openAs (isS3 : Str → Bool) (a : FactoryArgs) (path : Str) : Opened :=
  if ".zip".toList.isSuffixOf path then .zip (!a.readOnly) (!a.readOnly && a.aes) (!a.noCompress)
  else if a.s3 ≠ [] ∧ isS3 path = true then .s3
  else .folder

/-- The digest algorithm of an object a command makes: `create` has set the digest of the storage root (gocfl/cmd/create.go:239,
pkg/ocfl/storagerootbase.go:87); a storage root that is loaded has none (pkg/ocfl/storagerootbase.go:143-187), so `add` sets
its own (gocfl/cmd/add.go:269-276). -/
def newObjectDigest (c : Command) (k : Conf) : Option Str :=
  match c with
  | .create => some (k.str .initDigest)
  | .add => some (k.str .addDigest)
  | _ => none

end Gocfl
