import Verif.Model.Session

/-!
# Model of loading an object's inventory (`pkg/ocfl/objectbase.go`)
-/

namespace Gocfl

/-- `unicode.IsSpace` for Latin-1 (used by `strings.TrimSpace`).  Simplification: the spaces beyond Latin-1 are
left out. -/
def isSpaceChar (c : Char) : Bool :=
  c.toNat = 9 || c.toNat = 10 || c.toNat = 11 || c.toNat = 12 || c.toNat = 13 || c.toNat = 32 || c.toNat = 0x85 ||
    c.toNat = 0xA0

/-- `strings.TrimSpace` -/
def trimSpace (s : Str) : Str := ((s.dropWhile isSpaceChar).reverse.dropWhile isSpaceChar).reverse

/-- `[a-fA-F0-9]` -/
def isHexChar (c : Char) : Bool :=
  c.isDigit || decide (97 ≤ c.toNat ∧ c.toNat ≤ 102) || decide (65 ≤ c.toNat ∧ c.toNat ≤ 70)

/-- regexp class `\s` -/
def isReSpace (c : Char) : Bool := c.toNat = 9 || c.toNat = 10 || c.toNat = 12 || c.toNat = 13 || c.toNat = 32

/-- the regular expression `inventory.json` against a whole string; the dot matches any character but newline -/
def isInventoryName (s : Str) : Bool :=
  match s.drop 9 with
  | c :: r => decide (s.take 9 = "inventory".toList) && decide (c ≠ '\n') && decide (r = "json".toList)
  | [] => false

/-- pkg/ocfl/objectbase.go:282 `^([a-fA-F0-9]+)\s+inventory.json$`: the captured digest.  (Hex digits, spaces and
`i` are different characters, so the greedy match is the only one.) -/
def sidecarMatch (s : Str) : Option Str :=
  let hex := s.takeWhile isHexChar
  let rest := s.dropWhile isHexChar
  if hex = [] then none
  else if rest.takeWhile isReSpace = [] then none
  else if isInventoryName (rest.dropWhile isReSpace) then some hex else none

/-- Bytes as characters.  Simplification: bytes above 127 (never part of a match) are read as Latin-1. -/
def bytesStr (b : Bytes) : Str := b.map (fun x => Char.ofNat x.toNat)

/-- pkg/ocfl/objectbase.go:305-331: the findings about the sidecar; an unknown digest algorithm is an error.
Simplification: a sidecar that exists can be read. -/
def sidecarFnd (w : World) (fs : FS) (sidecar alg : Str) (json : Bytes) : Res (List Fnd) :=
  match mget fs sidecar with
  | none => .ok [err 58 [sidecar]]
  | some sb =>
    match sidecarMatch (trimSpace (bytesStr sb)) with
    | none => .ok [err 61 [sidecar]]
    | some dg =>
      match w.hash alg with
      | none => .error (.error "invalid digest file for inventory")
      | some h => .ok (if dg = h json then [] else [err 60 [dg, h json]])

/-- pkg/ocfl/objectbase.go:237-280 `loadInventory` and 285-334 `LoadInventory` of the object root (484-503 `Load`):
the inventory and the findings.  Simplifications: an existing file can be read; `Finalize` is called twice in the
code, its findings are listed once. -/
def loadRoot (w : World) (env : Env) (fs : FS) : Res (Inv × List Fnd) :=
  match mget fs rootInvPath with
  | none => .error (.error "inventory.json does not exist")
  | some b =>
    match w.dec b with
    | none => .error (.error "cannot unmarshal json")
    | some r =>
      finalize env r >>= fun x =>
      sidecarFnd w fs (rootSidecarPath r.inv.digestAlg) r.inv.digestAlg b >>= fun f =>
      .ok ({ x.1 with modified := false, writeable := false }, x.2 ++ f)

/-- an inventory with the time stamps of all versions changed by `f` -/
def stampInv (f : Str → Str) (inv : Inv) : Inv :=
  { inv with versions := inv.versions.map (fun e => (e.1, { e.2 with created := f e.2.created })) }

/-- the decoded form of an inventory written by the program: nothing missing, nothing undecodable; the fields that
are not stored have their initial values (pkg/ocfl/inventorybase.go:20-56) -/
def rawOf (inv : Inv) : RawInv :=
  { inv := { inv with fixityAlgs := [], paddingLength := 0, modified := false, writeable := false }, vmeta := [] }

end Gocfl
