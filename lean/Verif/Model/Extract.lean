import Verif.Model.Session

/-!
# Model of extraction (`pkg/ocfl/objectbase.go:1426-1492`, `pkg/ocfl/inventorybase.go:252-273`)
-/

namespace Gocfl

/-- The answer of the extension manager's `BuildObjectExtractPath`
(pkg/extension/NNNN-gocfl-extension-manager.go:499-508): the extraction name, `none` for the error
`ExtensionObjectExtractPathWrongAreaError`, or another error. -/
abbrev ExtractPath := Str → Res (Option Str)

/-- What an extraction has done: the writes to the target file system, the lines of the manifest (digest, name),
the error. -/
structure XOut where
  trace : List FsOp
  lines : List (Str × Str)
  err : Option GoErr

/-- pkg/ocfl/objectbase.go:1441-1468: copy one content file and compare its digest.  Simplification: creating and
writing the target never fails; an unknown algorithm leaves the created file empty. -/
def copyOut (hash : Option (Bytes → Str)) (src : FS) (internal external digest : Str) : List FsOp × Option GoErr :=
  match mget src internal with
  | none => ([], some (.error "cannot open"))
  | some b =>
    match hash with
    | none => ([.create external], some (.error "error copying"))
    | some h => (writeFile external b, if h b = digest then none else some (.error "invalid digest"))

/-- pkg/ocfl/objectbase.go:1431-1475: the names of one digest.  A name of another area ends the loop without an
error. -/
def extractNames (hash : Option (Bytes → Str)) (src : FS) (xp : ExtractPath) (internals : List Str) (digest : Str) :
    List Str → XOut
  | [] => ⟨[], [], none⟩
  | e :: es =>
    match xp e with
    | .error x => ⟨[], [], some x⟩
    | .ok none => ⟨[], [], none⟩
    | .ok (some x) =>
      match internals with
      | [] => ⟨[], [], some (.error "no internal paths")⟩
      | i :: _ =>
        let c := copyOut hash src i x digest
        match c.2 with
        | some err => ⟨c.1, [], some err⟩
        | none =>
          let r := extractNames hash src xp internals digest es
          ⟨c.1 ++ r.trace, (digest, x) :: r.lines, r.err⟩

/-- pkg/ocfl/inventorybase.go:260-271: all digests of the state, in map order -/
def extractState (hash : Option (Bytes → Str)) (src : FS) (xp : ExtractPath) (manifest : DMap) : DMap → XOut
  | [] => ⟨[], [], none⟩
  | (d, names) :: rest =>
    match mget manifest d with
    | none => ⟨[], [], some (.error "no manifest")⟩
    | some [] => ⟨[], [], some (.error "invalid manifest")⟩
    | some (i :: is) =>
      let c := extractNames hash src xp (i :: is) d names
      match c.err with
      | some err => ⟨c.trace, c.lines, some err⟩
      | none =>
        let r := extractState hash src xp manifest rest
        ⟨c.trace ++ r.trace, c.lines ++ r.lines, r.err⟩

/-- pkg/ocfl/inventorybase.go:253-255: `latest` and the empty selector mean the head -/
def selectVersion (inv : Inv) (v : Str) : Str := if v = "latest".toList ∨ v = [] then inv.head else v

/-- pkg/ocfl/objectbase.go:1477: `manifest.<algorithm>` -/
def manifestName (alg : Str) : Str := "manifest.".toList ++ alg

/-- pkg/ocfl/objectbase.go:1471: the text of the manifest lines -/
def manifestStr (lines : List (Str × Str)) : Str := lines.flatMap (fun l => l.1 ++ ' ' :: (l.2 ++ ['\n']))

/-- the bytes of the manifest.  Simplification: characters as Latin-1 bytes. -/
def manifestText (lines : List (Str × Str)) : Bytes := asBytes (manifestStr lines)

/-- pkg/ocfl/objectbase.go:1426-1492 `Extract` (with `IterateStateFiles`) of version `v` -/
def extract (w : World) (inv : Inv) (src : FS) (xp : ExtractPath) (v : Str) (withManifest : Bool) : XOut :=
  match mget inv.versions (selectVersion inv v) with
  | none => ⟨[], [], some (.error "invalid version")⟩
  | some ver =>
    let r := extractState (w.hash inv.digestAlg) src xp inv.manifest ver.state
    match r.err with
    | some e => ⟨r.trace, r.lines, some e⟩
    | none =>
      ⟨r.trace ++ (if withManifest then writeFile (manifestName inv.digestAlg) (manifestText r.lines) else []),
        r.lines, none⟩

/-- pkg/ocfl/inventorybase.go:237-250 `GetStateFiles` -/
def getStateFiles (inv : Inv) (v cs : Str) : Res (List Str) :=
  match mget inv.versions (selectVersion inv v) with
  | none => .error (.error "invalid version")
  | some ver =>
    match mget ver.state cs with
    | none => .error (.error "no state")
    | some files => .ok files

end Gocfl
