import Verif.Model.JsonL
import Verif.Model.Extract
import Verif.Model.RootCheck

/-!
# Model of the metadata of objects and storage roots

`ObjectBase.GetMetadata` (pkg/ocfl/objectbase.go:82-159), `Fixity.Checksums` (pkg/ocfl/fixity.go:9-30), `GetMetadata` of the
extension manager and of the indexer, `StorageRootBase.ExtractMeta` and `Extract` (pkg/ocfl/storagerootbase.go:608-694).
`V` is the type of what an extension reports.
-/

namespace Gocfl

/-- pkg/ocfl/metadata.go:8-13 `FileMetadata` -/
structure FileMeta (V : Type) where
  checksums : AMap Str Str
  internal : List Str
  versionName : AMap Str (List Str)
  ext : AMap Str V

/-- pkg/ocfl/metadata.go:15-20 `VersionMetadata` -/
structure VersionMeta where
  created : Str
  message : Str
  name : Str
  address : Str
  deriving DecidableEq, Repr

/-- pkg/ocfl/metadata.go:22-29 `ObjectMetadata` -/
structure ObjMeta (V : Type) where
  id : Str
  alg : Str
  head : Str
  versions : AMap Str VersionMeta
  files : AMap Str (FileMeta V)
  ext : Option (AMap Str V)

/-- pkg/ocfl/fixity.go:9-30 `Checksums`: per algorithm the first digest, in map order, with that file -/
def fixityChecksums (fx : AMap Str DMap) (fname : Str) : AMap Str Str :=
  fx.filterMap (fun e => (e.2.find? (fun x => decide (fname ∈ x.2))).map (fun x => (e.1, x.1)))

/-- pkg/extension/NNNN-gocfl-extension-manager.go:510-530 `GetMetadata`, after `acc`: name and answer of each extension -/
def mergeMeta {V : Type} : List (Str × Res (AMap Str V)) → AMap Str (AMap Str V) → Res (AMap Str (AMap Str V))
  | [], acc => .ok acc
  | (name, r) :: rest, acc =>
    match r with
    | .error e => .error e
    | .ok m => mergeMeta rest (m.foldl (fun a x => mset a x.1 (mset ((mget a x.1).getD []) name x.2)) acc)

/-- pkg/ocfl/objectbase.go:97-104 -/
def versionMeta (ver : Version) : VersionMeta := ⟨ver.created, ver.message, ver.userName, ver.userAddress⟩

/-- pkg/ocfl/objectbase.go:133-156: one file.  The inner loop over the state is a lookup. -/
def fileMeta {V : Type} (inv : Inv) (em : AMap Str (AMap Str V)) (d : Str) (fnames : List Str) : FileMeta V :=
  ⟨match fnames with
    | [] => []
    | f :: _ => fixityChecksums inv.fixity f,
   fnames,
   inv.versions.filterMap (fun e => (mget e.2.state d).map (fun names => (e.1, names))),
   (mget em d).getD []⟩

/-- pkg/ocfl/objectbase.go:82-159 `GetMetadata`; `exts`: what the extensions report -/
def objMetadata {V : Type} (inv : Inv) (exts : List (Str × Res (AMap Str V))) : Res (ObjMeta V) :=
  mergeMeta exts [] >>= fun em =>
  .ok { id := inv.id, alg := inv.digestAlg, head := inv.head,
        versions := inv.versions.map (fun e => (e.1, versionMeta e.2)),
        files := inv.manifest.filterMap (fun e => if e.2 = [] then none else some (e.1, fileMeta inv em e.1 e.2)),
        ext := mget em [] }

/-- the map `path2digest` (pkg/extension/NNNN-indexer.go:269-275), read like a Go map: the last entry wins, the digest of
an unknown path is empty -/
def pathDigest (man : DMap) (p : Str) : Str :=
  match (man.filter (fun e => decide (p ∈ e.2))).getLast? with
  | some e => e.1
  | none => []

/-- pkg/extension/NNNN-indexer.go:276-309, after `acc`: the metadata files of the versions are read; `strict`: one that
cannot be read is an error (the extensions filesystem, migration and thumbnail go on).  `lines`: path and entry of each
line.  Simplification: the object was loaded, nothing is buffered. -/
def readIndex {V : Type} (strict : Bool) (read : Str → Res Bytes) (lines : Bytes → Res (List (Str × V))) (man : DMap) :
    List Str → AMap Str V → Res (AMap Str V)
  | [], acc => .ok acc
  | v :: vs, acc =>
    match read v with
    | .error (.panic e) => .error (.panic e)
    | .error (.error e) => if strict then .error (.error e) else readIndex strict read lines man vs acc
    | .ok b => lines b >>= fun ls =>
        readIndex strict read lines man vs (ls.foldl (fun a l => mset a (pathDigest man l.1) l.2) acc)

/-- pkg/extension/NNNN-indexer.go:264-311 `GetMetadata` -/
def indexerMeta {V : Type} (c : Compr) (exts : List PathExt) (folder : Str) (cfg : MetaCfg)
    (lines : Bytes → Res (List (Str × V))) (inv : Inv) (fs : FS) : Res (AMap Str V) :=
  readIndex true (fun v => readJsonL c exts folder inv fs "indexer".toList v cfg) lines inv.manifest (mkeys inv.versions) []

/-- pkg/ocfl/storagerootbase.go:608-631 `ExtractMeta` of all objects, after `acc`; `exts`: what the extensions of the
object in a folder report -/
def rootMetadata {V : Type} (load : Str → Res (Inv × List Fnd)) (exts : Str → Inv → List (Str × Res (AMap Str V))) :
    List (List Str) → AMap Str (ObjMeta V) → Res (AMap Str (ObjMeta V))
  | [], acc => .ok acc
  | p :: ps, acc =>
    load (folderPath p) >>= fun r =>
    objMetadata r.1 (exts (folderPath p) r.1) >>= fun m =>
    rootMetadata load exts ps (mset acc r.1.id m)

/-- pkg/ocfl/storagerootbase.go:608-631, started -/
def extractMeta {V : Type} (w : World) (env : Env) (plain : Bool) (blank : Inv) (fs : FS) (t : FDir)
    (exts : Str → Inv → List (Str × Res (AMap Str V))) : Res (AMap Str (ObjMeta V)) :=
  rootMetadata (loadByFolder w env plain blank fs) exts (getObjectFolders t) []

/-- pkg/ocfl/storagerootbase.go:647-673 `Extract` of all objects: the writes to the target, and the error.  `xp`: the
extraction names the extensions of the object in a folder give for an area.  The area asked for is not passed on
(line 669). -/
def extractFolders (w : World) (load : Str → Res (Inv × List Fnd)) (fs : FS) (xp : Str → Str → ExtractPath) (v : Str)
    (withManifest : Bool) (area : Str) : List (List Str) → List FsOp × Option GoErr
  | [] => ([], none)
  | p :: ps =>
    match load (folderPath p) with
    | .error e => ([], some e)
    | .ok r =>
      let x := extract w r.1 (subFS fs (folderPath p)) (xp (folderPath p) []) v withManifest
      match x.err with
      | some e => (x.trace.map (FsOp.lift (folderPath p)), some e)
      | none =>
        let y := extractFolders w load fs xp v withManifest area ps
        (x.trace.map (FsOp.lift (folderPath p)) ++ y.1, y.2)

def extractRoot (w : World) (env : Env) (plain : Bool) (blank : Inv) (fs : FS) (t : FDir) (xp : Str → Str → ExtractPath)
    (v : Str) (withManifest : Bool) (area : Str) : List FsOp × Option GoErr :=
  extractFolders w (loadByFolder w env plain blank fs) fs xp (if v = [] then "latest".toList else v) withManifest area
    (getObjectFolders t)

end Gocfl
