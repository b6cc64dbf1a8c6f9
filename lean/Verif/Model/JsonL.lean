import Verif.Model.Session

/-!
# Metadata files of extensions (`WriteJsonL`, `ReadJsonL`)

The extensions indexer, filesystem, migration and thumbnail store one metadata file per version: inside the version's
content (storage types `area` and `path`) or in their own folder below `extensions/` (`extension`).
-/

namespace Gocfl

/-- The settings `compress`, `storageType` and `storageName` of such an extension, e.g.
pkg/extension/NNNN-indexer.go:104-110 -/
structure MetaCfg where
  compress : Str
  storageType : Str
  storageName : Str
  deriving DecidableEq, Repr

/-- `brotli.NewReader`, `gzip.NewWriter`, `gzip.NewReader` (`none`: the data is not in that format). -/
structure Compr where
  unbr : Bytes → Option Bytes
  gz : Bytes → Bytes
  ungz : Bytes → Option Bytes

/-- what decompressing relies on -/
def Compr.Ok (c : Compr) : Prop := ∀ b, c.ungz (c.gz b) = some b

/-- An extension as seen by the path functions of the manager: its `BuildObjectManifestPath` (if it is an
`ExtensionObjectContentPath`) and its `GetAreaPath` (if it is an `ExtensionArea`). -/
structure PathExt where
  manifest : Option (Str → Str → Res Str)
  area : Option (Str → Res Str)

/-- pkg/extension/NNNN-gocfl-extension-manager.go:371-385 `BuildObjectManifestPath`: every extension maps the result
of the one before, an empty result is ignored, errors are collected. -/
def manifestChain : List PathExt → Str → Str → Bool → Res Str
  | [], p, _, failed => if failed then .error (.error "BuildObjectManifestPath") else .ok p
  | e :: es, p, area, failed =>
    match e.manifest with
    | none => manifestChain es p area failed
    | some f =>
      match f p area with
      | .error (.panic m) => .error (.panic m)
      | .error (.error _) => manifestChain es p area true
      | .ok q => manifestChain es (if q = [] then p else q) area failed

/-- pkg/extension/NNNN-gocfl-extension-manager.go:532-545 `GetAreaPath`: the first non-empty answer. -/
def areaChain : List PathExt → Str → Bool → Res Str
  | [], _, failed => if failed then .error (.error "GetArea") else .ok []
  | e :: es, area, failed =>
    match e.area with
    | none => areaChain es area failed
    | some f =>
      match f area with
      | .error (.panic m) => .error (.panic m)
      | .error (.error _) => areaChain es area true
      | .ok q => if q = [] then areaChain es area failed else .ok q

/-- pkg/extension/NNNN-content-subpath.go:199-205 `GetAreaPath`: unlike `BuildObjectManifestPath` it knows neither the
default area nor `full`. -/
def SubPathExt.areaPath (e : SubPathExt) (area : Str) : Res Str :=
  match mget e.paths area with
  | none => .error (.error "invalid area")
  | some sub => .ok sub

def PathErr.toGo : PathErr → GoErr
  | .invalidArea => .error "invalid area"
  | .wrongArea => .error "wrong area"

/-- the content-subpath extension -/
def SubPathExt.toPathExt (e : SubPathExt) : PathExt :=
  ⟨some (fun p area => match e.build p area with | .ok q => .ok q | .error x => .error x.toGo), some e.areaPath⟩

/-- an object whose extension manager holds the extensions `exts`, outside the parts of `w` -/
def withExts (w : World) (exts : List PathExt) : World :=
  ⟨w.enc, w.dec, w.hash, w.statePath, fun p a => manifestChain exts p a false, w.time⟩

/-- pkg/ocfl/helper.go:373-381 and 444-471: the file name extension of the compression -/
def comprExt (compress : Str) : Option Str :=
  if compress = "brotli".toList then some ".br".toList
  else if compress = "gzip".toList then some ".gz".toList
  else if compress = "none".toList then some []
  else none

/-- pkg/ocfl/helper.go:444-471: what is stored for the brotli stream `b` (`none`: reading it fails) -/
def comprData (c : Compr) (compress : Str) (b : Bytes) : Option Bytes :=
  if compress = "brotli".toList then some b
  else if compress = "gzip".toList then (c.unbr b).map c.gz
  else c.unbr b

/-- pkg/ocfl/helper.go:409-424: what is read from the stored bytes -/
def decomprData (c : Compr) (compress : Str) (b : Bytes) : Option Bytes :=
  if compress = "brotli".toList then c.unbr b
  else if compress = "gzip".toList then c.ungz b
  else some b

/-- `fmt.Sprintf("%s_%s.jsonl%s", name, version, ext)` -/
def jsonlName (name version ext : Str) : Str := name ++ '_' :: (version ++ (".jsonl".toList ++ ext))

/-- pkg/ocfl/helper.go:398-399 and 491: the file in the folder of the extension -/
def jsonlExtName (storageName name version ext : Str) : Str :=
  trimLeft (storageName ++ '/' :: jsonlName name version ext) "/".toList

/-- pkg/ocfl/helper.go:440-505 `WriteJsonL`; `exts`: the extensions of the object, `folder`: the extension's folder
below `extensions/` (its `fsys`), `b`: the brotli stream.  Simplification: if the stream cannot be read nothing is
stored (the code leaves an incomplete file). -/
def writeJsonL (w : World) (c : Compr) (exts : List PathExt) (folder : Str) (o : Obj) (name : Str) (b : Bytes)
    (cfg : MetaCfg) : Out :=
  match comprExt cfg.compress with
  | none => fail o "invalid compression"
  | some ext =>
    match comprData c cfg.compress b with
    | none => fail o "cannot read"
    | some data =>
      if toLower cfg.storageType = "area".toList then
        objAddReader (withExts w exts) o [jsonlName name o.inv.head ext] cfg.storageName data
      else if toLower cfg.storageType = "path".toList then
        match areaChain exts "content".toList false with
        | .error e => ⟨o, some e⟩
        | .ok path =>
          objAddReader (withExts w exts) o
            [path ++ '/' :: (cfg.storageName ++ '/' :: jsonlName name o.inv.head ext)] [] data
      else if toLower cfg.storageType = "extension".toList then
        ok (o.write (writeFile (extPath (folder ++ '/' :: jsonlExtName cfg.storageName name o.inv.head ext)) data))
      else fail o "unsupported storage type"

/-- pkg/ocfl/helper.go:382-403: the file `ReadJsonL` opens, as a path of the object's directory -/
def jsonlTarget (exts : List PathExt) (folder : Str) (inv : Inv) (name version ext : Str) (cfg : MetaCfg) : Res Str :=
  if cfg.storageType = "area".toList then
    areaChain exts cfg.storageName false >>= fun path =>
    .ok (buildManifestNameVersion inv (path ++ '/' :: jsonlName name version ext) version)
  else if cfg.storageType = "path".toList then
    areaChain exts "content".toList false >>= fun path =>
    .ok (buildManifestNameVersion inv (path ++ '/' :: (cfg.storageName ++ '/' :: jsonlName name version ext)) version)
  else if cfg.storageType = "extension".toList then
    .ok (extPath (folder ++ '/' :: jsonlExtName cfg.storageName name version ext))
  else .error (.error "unsupported storage type")

/-- pkg/ocfl/helper.go:369-438 `ReadJsonL` from the object's directory `fs` (the extension's `fsys` is set) -/
def readJsonL (c : Compr) (exts : List PathExt) (folder : Str) (inv : Inv) (fs : FS) (name version : Str)
    (cfg : MetaCfg) : Res Bytes :=
  match comprExt cfg.compress with
  | none => .error (.error "invalid compression")
  | some ext =>
    jsonlTarget exts folder inv name version ext cfg >>= fun target =>
    match mget fs target with
    | none => .error (.error "cannot open")
    | some data =>
      match decomprData c cfg.compress data with
      | none => .error (.error "cannot read")
      | some d => .ok d

end Gocfl
