import Verif.Model.Migration
import Verif.Model.Layout

/-!
# Model of the thumbnail extension

pkg/extension/NNNN-thumbnail.go and NNNN-thumbnail_native.go: where the thumbnails are stored, what is recorded about them,
what is read back, and the size of the ones made while a file is added.
-/

namespace Gocfl

/-- pkg/extension/NNNN-thumbnail.go:71-81 `ThumbnailConfig`, without the size -/
structure ThumbCfg where
  ext : Str
  single : Bool
  store : MetaCfg

/-- pkg/subsystem/thumbnail/thumbnail.go:23-50 `Function`.  `run`: the command, with the content of the file it leaves
(`none`: it fails or leaves none). -/
structure ThumbFun where
  id : Str
  run : Bytes → Option Bytes

/-- pkg/extension/NNNN-thumbnail.go:90-99 `ThumbnailResult` as it is recorded; `failed`: `Error` is not empty -/
structure ThumbLine where
  file : Str
  source : Str
  digest : Str
  failed : Bool
  id : Str
  deriving DecidableEq, Repr

/-- What the extension depends on besides the object: `m` as for migration; the extensions of the object; the folder of the
extension below `extensions/`; its configuration; `rnd`: what `rand.Intn(64)` gives for the n-th thumbnail. -/
structure ThumbWorld where
  m : MigWorld
  exts : List PathExt
  folder : Str
  cfg : ThumbCfg
  rnd : Nat → Nat

/-- `fmt.Sprintf("%05d.%s", n, strings.ToLower(ext))` -/
def thumbBase (ext : Str) (n : Nat) : Str := fmtIntPad 5 (n : Int) ++ '.' :: toLower ext

/-- pkg/extension/NNNN-thumbnail.go:181-191: the name of the n-th thumbnail of a version.  `[]rune(cs)[1]` is out of range
if the random number has one hexadecimal digit. -/
def thumbName (cfg : ThumbCfg) (head : Str) (n rnd : Nat) : Res Str :=
  let sub := if cfg.store.storageType = "area".toList then "thumbnails".toList else cfg.store.storageName
  if cfg.single then .ok (sub ++ '/' :: (head ++ '/' :: thumbBase cfg.ext n))
  else
    match hexNat rnd with
    | a :: b :: _ => .ok (sub ++ '/' :: (head ++ '/' :: a :: '/' :: b :: '/' :: thumbBase cfg.ext n))
    | _ => .error (.panic "index out of range: []rune(cs)[1]")

/-- the digest `AddReader` returns for `data` -/
def dataDigest (w : World) (inv : Inv) (data : Bytes) : Str :=
  match w.hash inv.digestAlg with
  | none => []
  | some h => h data

/-- the object and error, the file name and the digest returned -/
structure ThumbStored where
  out : Out
  file : Str
  digest : Str

/-- pkg/extension/NNNN-thumbnail.go:180-229 `storeThumbnail` of the n-th thumbnail, with content `data` -/
def storeThumb (t : ThumbWorld) (o : Obj) (n : Nat) (data : Bytes) : ThumbStored :=
  match thumbName t.cfg o.inv.head n (t.rnd n) with
  | .error e => ⟨⟨o, some e⟩, [], []⟩
  | .ok name =>
    if toLower t.cfg.store.storageType = "area".toList then
      match objAddReader (withExts t.m.w t.exts) o [name] t.cfg.store.storageName data with
      | ⟨o1, some e⟩ => ⟨⟨o1, some e⟩, [], []⟩
      | ⟨o1, none⟩ =>
        match areaChain t.exts t.cfg.store.storageName false with
        | .error e => ⟨⟨o1, some e⟩, [], []⟩
        | .ok path => ⟨ok o1, path ++ '/' :: name, dataDigest t.m.w o.inv data⟩
    else if toLower t.cfg.store.storageType = "path".toList then
      match areaChain t.exts "content".toList false with
      | .error e => ⟨⟨o, some e⟩, [], []⟩
      | .ok path =>
        let target := trimLeft (pathJoin [path, t.cfg.store.storageName, name]) "/".toList
        match objAddReader (withExts t.m.w t.exts) o [target] [] data with
        | ⟨o1, some e⟩ => ⟨⟨o1, some e⟩, [], []⟩
        | ⟨o1, none⟩ => ⟨ok o1, target, dataDigest t.m.w o.inv data⟩
    else if toLower t.cfg.store.storageType = "extension".toList then
      ⟨ok (o.write (writeFile (extPath (t.folder ++ '/' :: name)) data)), name, []⟩
    else ⟨fail o "unsupported storage type", [], []⟩

/-- The object, `counter[head]`, and the lines recorded so far for the head version. -/
structure ThumbSt where
  obj : Obj
  n : Nat
  lines : List ThumbLine

structure ThumbOut where
  st : ThumbSt
  err : Option GoErr

/-! ### While a file is added -/

/-- pkg/extension/NNNN-thumbnail_native.go:39: the name under which the thumbnail of a streamed file is remembered; the
content directory of the object is not used -/
def infoName (head file : Str) : Str := head ++ ("/content/".toList ++ file)

/-- pkg/extension/NNNN-thumbnail_native.go:23-109 `StreamObject`; `render`: decoding, resizing and encoding (`none`: not an
image); `streamed`: `streamInfo[head]`.  Simplification: encoding does not fail half way. -/
def streamThumb (t : ThumbWorld) (render : Bytes → Option Bytes) (st : ThumbSt) (streamed : AMap Str ThumbLine)
    (files : List Str) (data : Bytes) : ThumbOut × AMap Str ThumbLine :=
  match files with
  | [] => (⟨st, some (.error "no state files")⟩, streamed)
  | f :: _ =>
    if toLower t.cfg.ext ≠ "png".toList ∧ toLower t.cfg.ext ≠ "jpeg".toList then (⟨st, none⟩, streamed)
    else if (mget streamed (infoName st.obj.inv.head f)).isSome then (⟨st, none⟩, streamed)
    else
      match render data with
      | none => (⟨st, none⟩, streamed)
      | some pic =>
        match storeThumb t st.obj (st.n + 1) pic with
        | ⟨⟨o, some e⟩, _, _⟩ => (⟨⟨o, st.n + 1, st.lines⟩, some e⟩, streamed)
        | ⟨⟨o, none⟩, file, digest⟩ =>
          (⟨⟨o, st.n + 1, st.lines⟩, none⟩,
            mset streamed (infoName st.obj.inv.head f) ⟨file, [], digest, false, "internal".toList⟩)

/-- pkg/extension/NNNN-thumbnail_native.go:54-62: the size of a thumbnail of a `dx`×`dy` picture, `w`×`h` configured -/
def thumbSize (w h dx dy : Nat) : Nat × Nat :=
  if dx / dy > w / h then (w, dy * w / dx) else (dx * h / dy, h)

/-! ### At the end of an update -/

/-- pkg/extension/NNNN-thumbnail.go:330-361: the content to make a thumbnail of; `none`: `continue` -/
def thumbSource (m : MigWorld) (inv : Inv) (cs src : Str) : Res (Option Bytes) :=
  match m.readContent src with
  | some b => .ok (some b)
  | none =>
    match m.sourceFS with
    | none => .ok none
    | some fs =>
      match mget inv.versions inv.head with
      | none => .error (.error "invalid version")
      | some ver =>
        match mget ver.state cs with
        | none => .error (.error "cannot get state files")
        | some files =>
          match files.getLast? with
          | none => .error (.error "zero state file")
          | some f => m.extractPath f >>= fun x => .ok (fs x)

def ThumbSt.record (st : ThumbSt) (l : ThumbLine) : ThumbSt := ⟨st.obj, st.n, st.lines ++ [l]⟩

/-- pkg/extension/NNNN-thumbnail.go:231-276 `DoThumbnail` and 362-377: the thumbnail of `data`, the content of digest `cs`.
An error is recorded; a panic is not.  Simplification: temporary files can be written. -/
def makeThumb (t : ThumbWorld) (st : ThumbSt) (cs : Str) (f : ThumbFun) (data : Bytes) : ThumbOut :=
  match f.run data with
  | none => ⟨(ThumbSt.mk st.obj (st.n + 1) st.lines).record ⟨[], cs, [], true, f.id⟩, none⟩
  | some pic =>
    match storeThumb t st.obj (st.n + 1) pic with
    | ⟨⟨o, some (.panic x)⟩, _, _⟩ => ⟨⟨o, st.n + 1, st.lines⟩, some (.panic x)⟩
    | ⟨⟨o, some (.error _)⟩, _, _⟩ => ⟨(ThumbSt.mk o (st.n + 1) st.lines).record ⟨[], cs, [], true, f.id⟩, none⟩
    | ⟨⟨o, none⟩, file, digest⟩ => ⟨(ThumbSt.mk o (st.n + 1) st.lines).record ⟨file, cs, digest, false, f.id⟩, none⟩

/-- pkg/extension/NNNN-thumbnail.go:300-389: one file, with digest `cs` and content paths `names`; `todo`: the function for
a digest, if it was identified, there is a function for it, and it has no thumbnail yet. -/
def thumbFile (t : ThumbWorld) (streamed : AMap Str ThumbLine) (todo : Str → Option ThumbFun) (st : ThumbSt) (cs : Str)
    (names : List Str) : ThumbOut :=
  match streamed.find? (fun e => decide (e.1 ∈ names)) with
  | some e => ⟨st.record { e.2 with source := cs }, none⟩
  | none =>
    match todo cs with
    | none => ⟨st, none⟩
    | some f =>
      match names with
      | [] => ⟨st, some (.panic "index out of range: InternalName[0]")⟩
      | src :: _ =>
        match thumbSource t.m st.obj.inv cs src with
        | .error e => ⟨st, some e⟩
        | .ok none => ⟨st, none⟩
        | .ok (some data) => makeThumb t st cs f data

/-- pkg/extension/NNNN-thumbnail.go:300-389: the loop over the files of the object (a map; any order) -/
def thumbFiles (t : ThumbWorld) (streamed : AMap Str ThumbLine) (todo : Str → Option ThumbFun) (st : ThumbSt) :
    List (Str × List Str) → ThumbOut
  | [] => ⟨st, none⟩
  | (cs, names) :: rest =>
    match thumbFile t streamed todo st cs names with
    | ⟨st1, some e⟩ => ⟨st1, some e⟩
    | ⟨st1, none⟩ => thumbFiles t streamed todo st1 rest

/-- pkg/extension/NNNN-thumbnail.go:282-411 `UpdateObjectAfter`; `enc`: the lines, compressed -/
def thumbAfter (t : ThumbWorld) (c : Compr) (enc : List ThumbLine → Bytes) (streamed : AMap Str ThumbLine)
    (todo : Str → Option ThumbFun) (st : ThumbSt) (files : List (Str × List Str)) : Out :=
  match thumbFiles t streamed todo st files with
  | ⟨st1, some e⟩ => ⟨st1.obj, some e⟩
  | ⟨st1, none⟩ => writeJsonL t.m.w c t.exts t.folder st1.obj "thumbnail".toList (enc st1.lines) t.cfg.store

/-! ### Reading -/

/-- pkg/extension/NNNN-thumbnail.go:478-481: the name of a thumbnail whose line has none -/
def oldThumbName (ext source : Str) : Res Str :=
  match source with
  | a :: b :: _ => .ok ("data/".toList ++ a :: '/' :: b :: '/' :: (source ++ '.' :: toLower ext))
  | _ => .error (.panic "index out of range: []rune(meta.SourceDigest)[1]")

/-- pkg/extension/NNNN-thumbnail.go:482-503: the file name reported -/
def thumbReported (exts : List PathExt) (cfg : ThumbCfg) (file : Str) : Res Str :=
  if toLower cfg.store.storageType = "area".toList then
    areaChain exts cfg.store.storageName false >>= fun path => .ok (path ++ '/' :: file)
  else if toLower cfg.store.storageType = "path".toList then
    areaChain exts "content".toList false >>= fun path =>
    .ok (if path = [] then cfg.store.storageName ++ '/' :: file
      else path ++ '/' :: (cfg.store.storageName ++ '/' :: file))
  else if toLower cfg.store.storageType = "extension".toList then .ok file
  else .error (.error "unsupported storage type")

/-- pkg/extension/NNNN-thumbnail.go:450-507: one line.  Simplification: `SourceName` is left out. -/
def thumbMetaLine (exts : List PathExt) (cfg : ThumbCfg) (man : DMap) (acc : AMap Str ThumbLine) (l : ThumbLine) :
    Res (AMap Str ThumbLine) :=
  let src := toLower l.source
  let l1 : ThumbLine := { l with source := src, digest := toLower l.digest }
  if (mget man src).isSome then
    let acc1 := if (mget man l1.digest).isSome then mset acc l1.digest l1 else acc
    (if l.file = [] then oldThumbName cfg.ext src else .ok l.file) >>= fun f =>
    thumbReported exts cfg f >>= fun g =>
    .ok (mset acc1 src { l1 with file := g })
  else .error (.error "cannot find checksum for file")

/-- pkg/extension/NNNN-thumbnail.go:413-513 `GetMetadata`, of the lines of all versions in the order they are read -/
def thumbMeta (exts : List PathExt) (cfg : ThumbCfg) (man : DMap) (lines : List ThumbLine) : Res (AMap Str ThumbLine) :=
  lines.foldlM (thumbMetaLine exts cfg man) []

/-- pkg/extension/NNNN-thumbnail.go:309-328: the function for a file; none for one with a record.  `fn`: the function for
what the indexer reports about the digest. -/
def thumbTodo (mt : AMap Str ThumbLine) (fn : Str → Option ThumbFun) (cs : Str) : Option ThumbFun :=
  if (mget mt cs).isSome then none else fn cs

end Gocfl
