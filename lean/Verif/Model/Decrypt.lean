import Verif.Model.Session

/-!
# The decryption tool

`decrypt/main.go`: an encrypted container is decrypted with the key file beside it and a key of a KeePass database.
The libraries (tink, KeePass, JSON) are abstract; the container is read as tink's streaming encryption lays it out:
a header and segments, each sealed with its number and whether it is the last one.
-/

namespace Gocfl

/-- `encrypt.KeyStruct`: the content of the key file -/
structure KeyFile where
  encryptedKey : Bytes
  aad : Bytes
  deriving DecidableEq, Repr

/-- opening a sealed segment, by its number and whether it is the last one -/
abbrev OpenSeg := Nat → Bool → Bytes → Option Bytes

structure DecryptWorld where
  /-- `json.Unmarshal` of the key file -/
  keyFile : Bytes → Option KeyFile
  /-- the KeePass database opened, its entry found (`none`: not possible), used to open the key -/
  master : Option (Bytes → Option Bytes)
  /-- the header and the segments of a container; `none` if it is shorter than a header -/
  layout : Bytes → Option (Bytes × List Bytes)
  /-- what the key, the additional data and the header give for the segments -/
  cipher : Bytes → Bytes → Bytes → OpenSeg

/-- `io.Copy` from the decrypting reader (decrypt/main.go:87): the segments that have been opened are written one by one;
`true` if the last one was among them. -/
def copySegs (f : OpenSeg) : Nat → List Bytes → List Bytes × Bool
  | _, [] => ([], false)
  | i, [c] =>
    match f i true c with
    | none => ([], false)
    | some p => ([p], true)
  | i, c :: d :: cs =>
    match f i false c with
    | none => ([], false)
    | some p => (p :: (copySegs f (i + 1) (d :: cs)).1, (copySegs f (i + 1) (d :: cs)).2)

/-- what a run of the tool does: the files written, what goes to standard output, the panic -/
structure DecryptOut where
  trace : List FsOp
  stdout : Bytes
  err : Option GoErr

def keyFileName (input : Str) : Str := input ++ ".key.json".toList

/-- decrypt/main.go:84-89, the container being `enc` when it is read.  Simplification: nothing is known about errors of the
operating system while writing. -/
def decryptCopy (w : DecryptWorld) (key aad : Bytes) (output : Str) (before : List FsOp) (enc : Bytes) : DecryptOut :=
  match w.layout enc with
  | none => ⟨before, [], some (.error "cannot write to stdout")⟩
  | some (header, segs) =>
    let r := copySegs (w.cipher key aad header) 0 segs
    let e : Option GoErr := if r.2 then none else some (.error "cannot write to stdout")
    if output = [] then ⟨before, r.1.flatten, e⟩
    else ⟨before ++ r.1.map (FsOp.append output), [], e⟩

/-- decrypt/main.go:75-85: the output file is created (an existing one is cut to nothing) before the container, opened at 58,
is read (tink reads the header with the first segment). -/
def decryptOpened (w : DecryptWorld) (fs : FS) (input output : Str) (key aad : Bytes) : DecryptOut :=
  if output = [] then decryptCopy w key aad output [] ((mget fs input).getD [])
  else decryptCopy w key aad output [.create output] ((mget (applyOps fs [.create output]) input).getD [])

/-- decrypt/main.go:24-90 `main` -/
def decryptMain (w : DecryptWorld) (fs : FS) (input output : Str) : DecryptOut :=
  match mget fs (keyFileName input) with
  | none => ⟨[], [], some (.error "cannot read key file")⟩
  | some kd =>
    match w.keyFile kd with
    | none => ⟨[], [], some (.error "cannot unmarshal key file")⟩
    | some k =>
      match w.master with
      | none => ⟨[], [], some (.error "cannot load keepass2 database")⟩
      | some unwrap =>
        match unwrap k.encryptedKey with
        | none => ⟨[], [], some (.error "cannot read keyset")⟩
        | some key =>
          match mget fs input with
          | none => ⟨[], [], some (.error "cannot open file")⟩
          | some _ => decryptOpened w fs input output key k.aad

end Gocfl
