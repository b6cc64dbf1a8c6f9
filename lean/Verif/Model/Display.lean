import Verif.Model.Metadata

/-!
# Model of the web display

`gocfl display` (gocfl/cmd/display/server.go): a web server with pages for the objects of a storage root.  The server keeps one
object and its metadata between requests; requests are handled by goroutines without any lock.
-/

namespace Gocfl

/-! ## Objects -/

/-- an object that was opened: its folder and its inventory -/
structure OpenObj where
  folder : Str
  inv : Inv
  deriving DecidableEq

/-- What the server depends on besides the files: the arguments of `loadByFolder`, the layouts, and what the extensions of an
object report. -/
structure DispEnv (V : Type) where
  w : World
  env : Env
  plain : Bool
  blank : Inv
  ls : List (Str → Res Str)
  exts : FS → Str → Inv → List (Str × Res (AMap Str V))

/-- `LoadObjectByFolder` -/
def DispEnv.openFolder {V : Type} (E : DispEnv V) (fs : FS) (folder : Str) : Res OpenObj :=
  loadByFolder E.w E.env E.plain E.blank fs folder >>= fun r => .ok ⟨folder, r.1⟩

/-- `LoadObjectByID` -/
def DispEnv.openId {V : Type} (E : DispEnv V) (fs : FS) (id : Str) : Res OpenObj :=
  if (rootPath E.ls id).2 then .error (.error "cannot create folder from id")
  else E.openFolder fs (rootPath E.ls id).1

/-- `object.GetMetadata` -/
def DispEnv.metaOf {V : Type} (E : DispEnv V) (fs : FS) (o : OpenObj) : Res (ObjMeta V) :=
  objMetadata o.inv (E.exts fs o.folder o.inv)

/-! ## Pages -/

/-- gocfl/cmd/display/server.go:610-667: the files of the page of a version, a Go map from name to checksum (the other data of
an entry left out); `.error` would be an entry of the migration extension of an unexpected type, which is left out -/
def versionPage {V : Type} (m : ObjMeta V) (v : Str) : AMap Str Str :=
  (m.files.flatMap (fun e => ((mget e.2.versionName v).getD []).map (fun q => (q, e.1)))).foldl
    (fun a x => mset a x.1 x.2) []

/-- gocfl/cmd/display/server.go:518-552: the files of the page of the manifest -/
def manifestPage {V : Type} (m : ObjMeta V) : AMap Str Str :=
  (m.files.flatMap (fun e => e.2.internal.map (fun p => (p, e.1)))).foldl (fun a x => mset a x.1 x.2) []

/-- gocfl/cmd/display/server.go:196: the path of a file of an extension -/
def extFilePath (ext path : Str) : Str := pathJoin ["extensions".toList, ext, path]

/-! ## Requests -/

/-- what is asked for, after unescaping: a file (server.go:222-277), the page of a version (571-672) or of the manifest
(476-569), a file of an extension (147-220), the object in a folder (714-736, answered by a redirect to its id) -/
inductive DispReq where
  | download (id checksum : Str)
  | version (id v : Str)
  | manifest (id : Str)
  | extFile (id ext path : Str)
  | folder (path : Str)
  deriving DecidableEq

/-- the answers: bytes, a page for an object with files and checksums, a redirect to an id, an error (status 400), a panic
(caught, status 500) -/
inductive DispAns where
  | bytes (b : Bytes)
  | page (id : Str) (files : AMap Str Str)
  | redirect (id : Str)
  | bad
  | panic
  deriving DecidableEq

/-- what the server keeps (server.go:43-44) -/
structure DispSt (V : Type) where
  object : Option OpenObj
  metadata : Option (ObjMeta V)

/-- where the goroutine of a request is: before looking at the object that is kept, before loading, before asking for metadata,
before looking at the metadata, before opening a file of the object, or done -/
inductive DispPc where
  | start
  | load
  | getMeta
  | use
  | openFile (path : Str)
  | showPage (files : AMap Str Str)
  | done (a : DispAns)

/-- the object's id in the request -/
def DispReq.id? : DispReq → Option Str
  | .download id _ => some id
  | .version id _ => some id
  | .manifest id => some id
  | .extFile id _ _ => some id
  | .folder _ => none

/-- The request uses what the metadata says (server.go:252-263, 610-667, 518-552, 196). -/
def useMeta {V : Type} (r : DispReq) (s : DispSt V) : DispPc :=
  match r with
  | .download _ c =>
    match s.metadata with
    | none => .done .panic
    | some m =>
      match mget m.files c with
      | none => .done .bad
      | some f =>
        match f.internal with
        | [] => .done .panic
        | p :: _ => .openFile p
  | .version _ v =>
    match s.metadata with
    | none => .done .panic
    | some m => .showPage (versionPage m v)
  | .manifest _ =>
    match s.metadata with
    | none => .done .panic
    | some m => .showPage (manifestPage m)
  | .extFile _ e p => .openFile (extFilePath e p)
  | .folder _ =>
    match s.object with
    | none => .done .panic
    | some o => .done (.redirect o.inv.id)

/-- server.go:239-247 and the same lines in all handlers: the object that is kept is used if it has the id -/
def startReq {V : Type} (r : DispReq) (s : DispSt V) : DispPc :=
  match r.id?, s.object with
  | some id, some o =>
    if o.inv.id = id then
      match s.metadata with
      | none => .getMeta
      | some _ => .use
    else .load
  | _, _ => .load

/-- server.go:249, 724: loading the object -/
def loadReq {V : Type} (E : DispEnv V) (fs : FS) : DispReq → Res OpenObj
  | .download id _ => E.openId fs id
  | .version id _ => E.openId fs id
  | .manifest id => E.openId fs id
  | .extFile id _ _ => E.openId fs id
  | .folder p => E.openFolder fs (trimRight (trimLeft p "/".toList) "/".toList)

/-- One step of a request.  Steps are coarser than in Go: those of different requests may be interleaved in more ways. -/
def dispStep {V : Type} (E : DispEnv V) (fs : FS) (r : DispReq) (s : DispSt V) : DispPc → DispSt V × DispPc
  | .start => (s, startReq r s)
  | .load =>
    match loadReq E fs r with
    | .ok o => (⟨some o, s.metadata⟩, .getMeta)
    | .error (.error _) => (⟨none, s.metadata⟩, .done .bad)
    | .error (.panic _) => (s, .done .panic)
  | .getMeta =>
    match s.object with
    | none => (s, .done .panic)
    | some o =>
      match E.metaOf fs o with
      | .ok m => (⟨s.object, some m⟩, .use)
      | .error (.error _) => (⟨s.object, none⟩, .done .bad)
      | .error (.panic _) => (s, .done .panic)
  | .use => (s, useMeta r s)
  | .openFile p =>
    match s.object with
    | none => (s, .done .panic)
    | some o =>
      match mget (subFS fs o.folder) p with
      | some b => (s, .done (.bytes b))
      | none => (s, .done .bad)
  | .showPage files =>
    match s.object with
    | none => (s, .done .panic)
    | some o => (s, .done (.page o.inv.id files))
  | .done a => (s, .done a)

/-- a request alone: at most five steps -/
def serve {V : Type} (E : DispEnv V) (fs : FS) (r : DispReq) (s : DispSt V) : DispSt V × DispPc :=
  let s1 := dispStep E fs r s .start
  let s2 := dispStep E fs r s1.1 s1.2
  let s3 := dispStep E fs r s2.1 s2.2
  let s4 := dispStep E fs r s3.1 s3.2
  dispStep E fs r s4.1 s4.2

/-- requests one after the other, each with the files there are then: the answers -/
def serveAll {V : Type} (E : DispEnv V) : List (FS × DispReq) → DispSt V → List DispPc
  | [], _ => []
  | (fs, r) :: rest, s => (serve E fs r s).2 :: serveAll E rest (serve E fs r s).1

/-- requests at the same time: the requests with what they do next; `sched` says whose turn it is -/
def interleave {V : Type} (E : DispEnv V) (fs : FS) : List Nat → DispSt V → List (DispReq × DispPc) → List (DispReq × DispPc)
  | [], _, ts => ts
  | k :: sched, s, ts =>
    match ts[k]? with
    | none => interleave E fs sched s ts
    | some (r, pc) =>
      interleave E fs sched (dispStep E fs r s pc).1 (ts.set k (r, (dispStep E fs r s pc).2))

end Gocfl
