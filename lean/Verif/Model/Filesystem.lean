import Verif.Model.Migration

/-!
# Model of the records extensions keep about files, and of the filesystem extension

pkg/extension/NNNN-filesystem.go and the same code in pkg/extension/NNNN-indexer.go: the lines of a version are written to
a compressed stream in memory while files are added, and stored when the version ends.
-/

namespace Gocfl

/-! ### The records of a version -/

/-- The fields `buffer`, `writer` and `currentHead` (pkg/extension/NNNN-filesystem.go:78-85,
pkg/extension/NNNN-indexer.go:119-130).  `writer`: `none` — nil, `some b` — a `brotli.Writer`, open if `b`.
Simplification: the bytes of the stream are the lines written to it. -/
structure RecSt (L : Type) where
  buffer : AMap Str (List L)
  writer : Option Bool
  currentHead : Str

/-- pkg/extension/NNNN-filesystem.go:41-51, pkg/extension/NNNN-indexer.go:93-117: a new extension, one per process -/
def recNew {L : Type} : RecSt L := ⟨[], none, []⟩

/-- pkg/extension/NNNN-filesystem.go:130-137, pkg/extension/NNNN-indexer.go:320-328: what precedes a record in the version
`head` -/
def recBegin {L : Type} (s : RecSt L) (head : Str) : RecSt L :=
  let b := if (mget s.buffer head).isSome then s.buffer else mset s.buffer head []
  if s.currentHead = head then { s with buffer := b } else ⟨b, some true, head⟩

/-- `writer.Write` (pkg/extension/NNNN-filesystem.go:193, pkg/extension/NNNN-indexer.go:366); `none`: it fails.  A closed
`brotli.Writer` refuses to write, to flush and to close (errWriterClosed of github.com/andybalholm/brotli). -/
def recWrite {L : Type} (s : RecSt L) (l : L) : Option (RecSt L) :=
  match s.writer with
  | some true =>
    some { s with buffer := mset s.buffer s.currentHead ((mget s.buffer s.currentHead).getD [] ++ [l]) }
  | _ => none

/-- one call of `AddFileAfter` or `StreamObject` with the lines it records -/
def recHook {L : Type} (s : RecSt L) (head : Str) (ls : List L) : Option (RecSt L) :=
  ls.foldlM recWrite (recBegin s head)

/-- pkg/extension/NNNN-filesystem.go:290-307, pkg/extension/NNNN-indexer.go:226-248: `UpdateObjectAfter` up to
`WriteJsonL`, and what is handed to it (`none`: nothing is stored) -/
def recEnd {L : Type} (s : RecSt L) (head : Str) : Res (RecSt L × Option (List L)) :=
  match s.writer with
  | none => .ok (s, none)
  | some false => .error (.error "cannot flush brotli writer")
  | some true =>
    if head = [] then .error (.error "no head for object")
    else .ok ({ s with writer := some false }, mget s.buffer head)

/-- What happens in a version: the calls of the hook with their lines, in order. -/
structure RecVersion (L : Type) where
  head : Str
  hooks : List (List L)

/-- a version from its first hook to `UpdateObjectAfter` -/
def recVersion {L : Type} (s : RecSt L) (v : RecVersion L) : Res (RecSt L × Option (List L)) :=
  match v.hooks.foldlM (fun s ls => recHook s v.head ls) s with
  | none => .error (.error "cannot brotli")
  | some s' => recEnd s' v.head

/-- versions one after the other, with what each of them stores -/
def recRun {L : Type} (s : RecSt L) : List (RecVersion L) → Res (RecSt L × List (Option (List L)))
  | [] => .ok (s, [])
  | v :: vs =>
    recVersion s v >>= fun r =>
    recRun r.1 vs >>= fun q => .ok (q.1, r.2 :: q.2)

/-! ### The filesystem extension -/

/-- pkg/extension/NNNN-filesystem.go:64-67 `FileSystemLine`; `version`: `Meta.StateVersion`, `info`: the rest of `Meta` -/
structure FsLine (M : Type) where
  path : Str
  version : Str
  info : M
  deriving DecidableEq, Repr

/-- `folders` — the setting; `stat` — `Fullpath`, `os.Stat` and `init` of a source file (pkg/extension/
NNNN-filesystem.go:140-156).  Simplification: the source is a local folder (otherwise nothing is recorded, line 143). -/
structure FsExt (M : Type) where
  w : World
  folders : Str
  stat : Str → Res M

/-- the records, the object, the error -/
structure FsOut (M : Type) where
  st : RecSt (FsLine M)
  obj : Obj
  err : Option GoErr

def fsWrite {M : Type} (s : RecSt (FsLine M)) (o : Obj) (l : FsLine M) : FsOut M :=
  match recWrite s l with
  | none => ⟨s, o, some (.error "cannot brotli")⟩
  | some s' => ⟨s', o, none⟩

/-- pkg/extension/NNNN-filesystem.go:110-199 `AddFileAfter` of a file -/
def fsAfterFile {M : Type} (x : FsExt M) (s : RecSt (FsLine M)) (o : Obj) (path area : Str) : FsOut M :=
  match x.stat path with
  | .error e => ⟨recBegin s o.inv.head, o, some e⟩
  | .ok m =>
    match x.w.statePath path area with
    | .error e => ⟨recBegin s o.inv.head, o, some e⟩
    | .ok p => fsWrite (recBegin s o.inv.head) o ⟨p, o.inv.head, m⟩

/-- pkg/extension/NNNN-filesystem.go:162-182: the file standing for a folder, and the path it is recorded with.  The first
one of an object is stored, the others are copies. -/
def placeholder {M : Type} (x : FsExt M) (o : Obj) (h : Bytes → Str) (path area : Str) : Out × Str :=
  let file := pathJoin [path, x.folders]
  if (mget o.inv.manifest (h [])).isSome then
    match buildNames x.w o.inv [file] area with
    | .error e => (⟨o, some e⟩, [])
    | .ok (names, _) => (withInv o (copyFile o.inv (names.headD []) (h [])), names.headD [])
  else (objAddReader x.w o [file] area [], file)

/-- pkg/extension/NNNN-filesystem.go:110-199 `AddFileAfter` of a folder -/
def fsAfterDir {M : Type} (x : FsExt M) (s : RecSt (FsLine M)) (o : Obj) (path area : Str) : FsOut M :=
  if x.folders = [] then ⟨s, o, none⟩
  else
    match x.w.hash o.inv.digestAlg with
    | none => ⟨s, o, some (.error "cannot calculate checksum")⟩
    | some h =>
      match x.stat path with
      | .error e => ⟨recBegin s o.inv.head, o, some e⟩
      | .ok m =>
        match x.w.statePath path area with
        | .error e => ⟨recBegin s o.inv.head, o, some e⟩
        | .ok _ =>
          match (placeholder x o h path area).1 with
          | ⟨o', some e⟩ => ⟨recBegin s o.inv.head, o', some e⟩
          | ⟨o', none⟩ => fsWrite (recBegin s o.inv.head) o' ⟨(placeholder x o h path area).2, o.inv.head, m⟩

/-- pkg/ocfl/objectbase.go:882-917: `AddFile` does not return before it calls the hooks -/
def storesAnew (w : World) (o : Obj) (path area : Str) (data : Bytes) (checkDup : Bool) : Bool :=
  !checkDup ||
    match w.statePath path area, w.hash o.inv.digestAlg with
    | .ok p, some h =>
      match alreadyExists o.inv p (h data) with
      | .ok false => decide (getDuplicates o.inv (h data) = [])
      | _ => false
    | _, _ => false

/-- what `fs.WalkDir` comes across -/
inductive SrcEntry where
  | file (path : Str) (data : Bytes)
  | dir (path : Str)
  deriving DecidableEq, Repr

/-- pkg/ocfl/objectbase.go:853-950 `AddFile` with the filesystem extension -/
def addEntry {M : Type} (x : FsExt M) (checkDup : Bool) (area : Str) (s : RecSt (FsLine M)) (o : Obj) : SrcEntry → FsOut M
  | .file p d =>
    match objAdd x.w o p area d checkDup with
    | ⟨o', some e⟩ => ⟨s, o', some e⟩
    | ⟨o', none⟩ => if storesAnew x.w o p area d checkDup then fsAfterFile x s o' p area else ⟨s, o', none⟩
  | .dir p =>
    if o.inv.writeable = false then ⟨s, o, some (.error "object not writeable")⟩
    else
      match buildNames x.w o.inv [p] area with
      | .error e => ⟨s, o, some e⟩
      | .ok _ => fsAfterDir x s o p area

/-- pkg/ocfl/objectbase.go:631-644 `AddFolder`; the entries in the order of `fs.WalkDir`.  Simplification: reading the
source succeeds. -/
def addTree {M : Type} (x : FsExt M) (checkDup : Bool) (area : Str) (s : RecSt (FsLine M)) (o : Obj) :
    List SrcEntry → FsOut M
  | [] => ⟨s, o, none⟩
  | e :: es =>
    match addEntry x checkDup area s o e with
    | ⟨s', o', some err⟩ => ⟨s', o', some err⟩
    | ⟨s', o', none⟩ => addTree x checkDup area s' o' es

/-- where and how the records are stored; `enc` — the compressed JSON lines, `dec` — reading them (`json.Unmarshal`) -/
structure FsStore (M : Type) where
  c : Compr
  exts : List PathExt
  folder : Str
  cfg : MetaCfg
  enc : List (FsLine M) → Bytes
  dec : Bytes → Res (List (FsLine M))

/-- pkg/extension/NNNN-filesystem.go:290-320 `UpdateObjectAfter` -/
def fsAfterUpdate {M : Type} (x : FsExt M) (k : FsStore M) (s : RecSt (FsLine M)) (o : Obj) : FsOut M :=
  match recEnd s o.inv.head with
  | .error e => ⟨s, o, some e⟩
  | .ok (s', none) => ⟨s', o, none⟩
  | .ok (s', some ls) =>
    let r := writeJsonL x.w k.c k.exts k.folder o "filesystem".toList (k.enc ls) k.cfg
    ⟨s', r.obj, r.err⟩

/-- pkg/ocfl/objectbase.go:567-592 `EndUpdate` (no extension asks for a follow-up version) -/
def fsEndUpdate {M : Type} (x : FsExt M) (k : FsStore M) (s : RecSt (FsLine M)) (o : Obj) : FsOut M :=
  if o.inv.writeable = false then ⟨s, o, none⟩
  else if o.inv.modified = false then ⟨s, o, none⟩
  else
    match (if o.echo then objEcho x.w o else ok o) with
    | ⟨o1, some e⟩ => ⟨s, o1, some e⟩
    | ⟨o1, none⟩ =>
      match fsAfterUpdate x k s o1 with
      | ⟨s2, o2, some e⟩ => ⟨s2, o2, some e⟩
      | ⟨s2, o2, none⟩ =>
        let r := (withInv o2 (clean o2.inv)).andThen fun o => storeInventory x.w o true false
        ⟨s2, r.obj, r.err⟩

/-- pkg/ocfl/objectbase.go:547-592: `StartUpdate`, `AddFolder`, `EndUpdate` of an object just loaded or created (the
commands, gocfl/cmd/helper.go:338-356) -/
def fsUpdate {M : Type} (x : FsExt M) (k : FsStore M) (inv : Inv) (v : VInfo) (echo checkDup : Bool) (area : Str)
    (es : List SrcEntry) : FsOut M :=
  match startUpdate x.w ⟨inv, [], false, []⟩ v echo [] with
  | ⟨o, some e⟩ => ⟨recNew, o, some e⟩
  | ⟨o, none⟩ =>
    match addTree x checkDup area recNew o es with
    | ⟨s, o', some e⟩ => ⟨s, o', some e⟩
    | ⟨s, o', none⟩ => fsEndUpdate x k s o'

/-- pkg/extension/NNNN-filesystem.go:249-279: the lines of version `v` that belong to its state, with the digest they are
reported under -/
def fsMatch {M : Type} (inv : Inv) (v : Str) (ls : List (FsLine M)) : Res (List (Str × FsLine M)) :=
  match mget inv.versions v with
  | none => .error (.error "invalid version")
  | some ver =>
    if ver.state.any (fun e => decide (mgetD inv.manifest e.1 = [])) then .error (.error "no manifest")
    else .ok (ver.state.flatMap (fun e => (ls.filter (fun l => decide (l.path ∈ e.2))).map (fun l => (e.1, l))))

/-- pkg/extension/NNNN-filesystem.go:219-288 `GetMetadata`; the nested map (digest, state version) flattened.  A version
whose file cannot be read is left out (line 245), one whose lines cannot be decoded is an error. -/
def fsMetadata {M : Type} (k : FsStore M) (s : RecSt (FsLine M)) (inv : Inv) (fs : FS) : Res (List (Str × FsLine M)) :=
  (mkeys inv.versions).mapM (fun v =>
    match mget s.buffer v with
    | some ls => fsMatch inv v ls
    | none =>
      match readJsonL k.c k.exts k.folder inv fs "filesystem".toList v k.cfg with
      | .error (.panic e) => .error (.panic e)
      | .error (.error _) => .ok []
      | .ok b => k.dec b >>= fun ls => fsMatch inv v ls) >>= fun rs => .ok rs.flatten

/-- `Indexer.GetMetadata` during an update (pkg/extension/NNNN-indexer.go:264-311), the first thing `UpdateObjectAfter` of
the migration needs (pkg/extension/NNNN-migration.go:152-161, pkg/ocfl/objectbase.go:96-99): the lines of a version come
from the buffer of this process, `buf`, if there is one, else from the object. -/
def indexDuring {V : Type} (c : Compr) (exts : List PathExt) (folder : Str) (cfg : MetaCfg)
    (lines : Bytes → Res (List (Str × V))) (buf : AMap Str Bytes) (inv : Inv) (fs : FS) : Res (AMap Str V) :=
  readIndex true (fun v => match mget buf v with
    | some b => .ok b
    | none => readJsonL c exts folder inv fs "indexer".toList v cfg) lines inv.manifest (mkeys inv.versions) []

end Gocfl
