import Verif.Model.JsonL

/-!
# Model of the metafile extension

pkg/extension/NNNN-metafile.go: a metadata file from outside is validated and stored with an update, and reported by
`GetMetadata`.
-/

namespace Gocfl

/-- pkg/extension/NNNN-metafile.go:98-105 `MetaFileConfig`, without the schema -/
structure MetaFileCfg where
  storageType : Str
  storageName : Str
  metaName : Str
  deriving DecidableEq, Repr

/-- `url.URL` as far as it is used: `Scheme`, `Path`, `String()` -/
structure Url where
  scheme : Str
  path : Str
  str : Str
  deriving DecidableEq, Repr

/-- What the extension depends on besides the object: the extensions of the object, its own folder below `extensions/`, its
configuration, the parameter `source` (`none`: not given); `openFile`: `os.Open`, `httpGet`: the body of `http.Get` (whatever
the status); `decode`: the decoder for a file name extension (with `toStringKeys`); `valid`: the compiled schema;
`marshal`: `json.MarshalIndent`; `asMap`: `json.Unmarshal` to a map. -/
structure MetaFileWorld (J : Type) where
  w : World
  exts : List PathExt
  folder : Str
  cfg : MetaFileCfg
  source : Option Url
  openFile : Str → Option Bytes
  httpGet : Str → Option Bytes
  decode : Str → Bytes → Option J
  valid : J → Bool
  marshal : J → Option Bytes
  asMap : Bytes → Option J

/-- `strings.Replace(s, "$ID", id, -1)` -/
def replaceId (id : Str) : Str → Str
  | '$' :: 'I' :: 'D' :: r => id ++ replaceId id r
  | c :: r => c :: replaceId id r
  | [] => []

/-- `filepath.Ext`: from the last dot of the last component -/
def fileExt (p : Str) : Str :=
  let base := p.reverse.takeWhile (fun c => decide (c ≠ '/'))
  if '.' ∈ base then '.' :: (base.takeWhile (fun c => decide (c ≠ '.'))).reverse else []

/-- pkg/extension/NNNN-metafile.go:356 `windowsPathWithDrive` -/
def hasDrive : Str → Bool
  | '/' :: c :: ':' :: _ => c.isAlpha
  | _ => false

/-- pkg/extension/NNNN-metafile.go:228-263: the file of the metadata of object `id`, and where it is read -/
def metaSource {J : Type} (m : MetaFileWorld J) (u : Url) (id : Str) : Option (Str × (Str → Option Bytes)) :=
  let file := '/' :: trimLeft (replaceId id u.path) "/".toList
  if toLower u.scheme = "http".toList ∨ toLower u.scheme = "https".toList then some (replaceId id u.str, m.httpGet)
  else if toLower u.scheme = "file".toList then
    some (if hasDrive file then trimLeft file "/".toList else file, m.openFile)
  else if u.scheme = [] then some (file, m.openFile)
  else none

/-- pkg/extension/NNNN-metafile.go:228-310: the bytes to store for object `id` -/
def metaData {J : Type} (m : MetaFileWorld J) (u : Url) (id : Str) : Res Bytes :=
  match metaSource m u id with
  | none => .error (.error "url scheme not supported")
  | some (fname, read) =>
    match read fname with
    | none => .error (.error "cannot open")
    | some b =>
      if toLower (fileExt fname) ∈ [".json".toList, ".yaml".toList, ".toml".toList] then
        match m.decode (toLower (fileExt fname)) b with
        | none => .error (.error "cannot decode info file")
        | some j =>
          if m.valid j then
            match m.marshal j with
            | none => .error (.error "cannot marshal info json")
            | some data => .ok data
          else .error (.error "cannot validate info file")
      else .error (.error "unknown file extension")

/-- pkg/extension/NNNN-metafile.go:312-336: the metadata is stored -/
def storeMeta {J : Type} (m : MetaFileWorld J) (o : Obj) (data : Bytes) : Out :=
  if toLower m.cfg.storageType = "area".toList then
    objAddReader (withExts m.w m.exts) o [trimLeft m.cfg.metaName "/".toList] m.cfg.storageName data
  else if toLower m.cfg.storageType = "path".toList then
    match areaChain m.exts "content".toList false with
    | .error e => ⟨o, some e⟩
    | .ok path =>
      objAddReader (withExts m.w m.exts) o
        [trimLeft (pathJoin [path, m.cfg.storageName, m.cfg.metaName]) "/".toList] [] data
  else if toLower m.cfg.storageType = "extension".toList then
    ok (o.write (writeFile
      (extPath (m.folder ++ '/' :: trimLeft (pathJoin [m.cfg.storageName, m.cfg.metaName]) "/".toList)) data))
  else fail o "unsupported storage type"

/-- The object and the fields `stored` and `info` of the extension. -/
structure MetaSt where
  obj : Obj
  stored : Bool
  info : AMap Str Bytes

structure MetaOut where
  st : MetaSt
  err : Option GoErr

/-- pkg/extension/NNNN-metafile.go:205-341 `UpdateObjectBefore`, with inventory and filesystem set.  The source is
dereferenced before it is compared with nil. -/
def metaBefore {J : Type} (m : MetaFileWorld J) (st : MetaSt) : MetaOut :=
  match m.source with
  | none => ⟨st, some (.panic "nil dereference: metadataSource")⟩
  | some u =>
    if u.path = [] then ⟨st, none⟩
    else if st.stored then ⟨st, none⟩
    else
      match metaData m u st.obj.inv.id with
      | .error e => ⟨⟨st.obj, true, st.info⟩, some e⟩
      | .ok data =>
        match storeMeta m st.obj data with
        | ⟨o, some e⟩ => ⟨⟨o, true, st.info⟩, some e⟩
        | ⟨o, none⟩ => ⟨⟨o, true, mset st.info st.obj.inv.head data⟩, none⟩

/-- pkg/ocfl/helper.go:341-366: the file `ReadFile` opens, as a path of the object's directory -/
def metaTarget (exts : List PathExt) (folder : Str) (inv : Inv) (version : Str) (cfg : MetaFileCfg) : Res Str :=
  if cfg.storageType = "area".toList then
    areaChain exts cfg.storageName false >>= fun path =>
    .ok (buildManifestNameVersion inv (path ++ '/' :: cfg.metaName) version)
  else if cfg.storageType = "path".toList then
    areaChain exts "content".toList false >>= fun path =>
    .ok (buildManifestNameVersion inv (path ++ '/' :: (cfg.storageName ++ '/' :: cfg.metaName)) version)
  else if cfg.storageType = "extension".toList then
    .ok (extPath (folder ++ '/' :: trimLeft (cfg.storageName ++ '/' :: cfg.metaName) "/".toList))
  else .error (.error "unsupported storage type")

/-- pkg/ocfl/helper.go:341-367 `ReadFile` -/
def readMeta (exts : List PathExt) (folder : Str) (inv : Inv) (fs : FS) (version : Str) (cfg : MetaFileCfg) : Res Bytes :=
  metaTarget exts folder inv version cfg >>= fun target =>
  match mget fs target with
  | none => .error (.error "cannot open")
  | some b => .ok b

/-- pkg/extension/NNNN-metafile.go:365-380: the first of the versions with metadata; the error is the last one.  A panic
of `GetAreaPath` is not caught. -/
def findMeta {J : Type} (m : MetaFileWorld J) (info : AMap Str Bytes) (inv : Inv) (fs : FS) : List Str → Option GoErr →
    Res (Option Bytes)
  | [], none => .ok none
  | [], some e => .error e
  | v :: vs, _ =>
    match mget info v with
    | some b => .ok (some b)
    | none =>
      match readMeta m.exts m.folder inv fs v m.cfg with
      | .ok b => .ok (some b)
      | .error (.panic s) => .error (.panic s)
      | .error (.error s) => findMeta m info inv fs vs (some (.error s))

/-- pkg/extension/NNNN-metafile.go:362-389 `GetMetadata`: the metadata reported (`none`: nil without error) -/
def metaGet {J : Type} (m : MetaFileWorld J) (info : AMap Str Bytes) (inv : Inv) (fs : FS) : Res (Option J) :=
  findMeta m info inv fs (getVersionStrings inv).reverse none >>= fun r =>
  match r with
  | none => .ok none
  | some b =>
    match m.asMap b with
    | none => .error (.error "cannot unmarshal")
    | some j => .ok (some j)

end Gocfl
