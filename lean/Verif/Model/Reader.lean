import Verif.Model.Extract
import Verif.Model.Load

/-!
# Model of extracting an object while it is being updated

The code has no locks: `gocfl extract` loads an object and copies its content files while another process may be writing
in the object's folder.  Here every file that is opened is read from the folder as it is at that moment.
Simplification: one file is read in one moment.
-/

namespace Gocfl

/-- pkg/ocfl/objectbase.go:237-280 and 285-334 (`loadRoot`): the inventory is read from `a`, its sidecar later, from `b` -/
def loadRootAt (w : World) (env : Env) (a b : FS) : Res (Inv × List Fnd) :=
  match mget a rootInvPath with
  | none => .error (.error "inventory.json does not exist")
  | some bs =>
    match w.dec bs with
    | none => .error (.error "cannot unmarshal json")
    | some r =>
      finalize env r >>= fun x =>
      sidecarFnd w b (rootSidecarPath r.inv.digestAlg) r.inv.digestAlg bs >>= fun f =>
      .ok ({ x.1 with modified := false, writeable := false }, x.2 ++ f)

/-- pkg/ocfl/objectbase.go:1431-1475 (`extractNames`): the content for the `j`-th name is read from `view (k + j)` -/
def extractNamesAt (hash : Option (Bytes → Str)) (view : Nat → FS) (xp : ExtractPath) (internals : List Str) (digest : Str) :
    Nat → List Str → XOut
  | _, [] => ⟨[], [], none⟩
  | k, e :: es =>
    match xp e with
    | .error x => ⟨[], [], some x⟩
    | .ok none => ⟨[], [], none⟩
    | .ok (some x) =>
      match internals with
      | [] => ⟨[], [], some (.error "no internal paths")⟩
      | i :: _ =>
        let c := copyOut hash (view k) i x digest
        match c.2 with
        | some err => ⟨c.1, [], some err⟩
        | none =>
          let r := extractNamesAt hash view xp internals digest (k + 1) es
          ⟨c.1 ++ r.trace, (digest, x) :: r.lines, r.err⟩

/-- pkg/ocfl/inventorybase.go:260-271 (`extractState`), `k` files having been read before -/
def extractStateAt (hash : Option (Bytes → Str)) (view : Nat → FS) (xp : ExtractPath) (manifest : DMap) : Nat → DMap → XOut
  | _, [] => ⟨[], [], none⟩
  | k, (d, names) :: rest =>
    match mget manifest d with
    | none => ⟨[], [], some (.error "no manifest")⟩
    | some [] => ⟨[], [], some (.error "invalid manifest")⟩
    | some (i :: is) =>
      let c := extractNamesAt hash view xp (i :: is) d k names
      match c.err with
      | some err => ⟨c.trace, c.lines, some err⟩
      | none =>
        let r := extractStateAt hash view xp manifest (k + c.lines.length) rest
        ⟨c.trace ++ r.trace, c.lines ++ r.lines, r.err⟩

/-- pkg/ocfl/objectbase.go:1426-1492 `Extract` (`extract`): the `k`-th content file is read from `view k` -/
def extractAt (w : World) (inv : Inv) (view : Nat → FS) (xp : ExtractPath) (v : Str) (withManifest : Bool) : XOut :=
  match mget inv.versions (selectVersion inv v) with
  | none => ⟨[], [], some (.error "invalid version")⟩
  | some ver =>
    let r := extractStateAt (w.hash inv.digestAlg) view xp inv.manifest 0 ver.state
    match r.err with
    | some e => ⟨r.trace, r.lines, some e⟩
    | none =>
      ⟨r.trace ++ (if withManifest then writeFile (manifestName inv.digestAlg) (manifestText r.lines) else []),
        r.lines, none⟩

end Gocfl
