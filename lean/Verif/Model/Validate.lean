import Verif.Model.Inventory
import Verif.Model.Echo

/-!
# Model of the validation of inventories (`pkg/ocfl/inventorybase.go`, `inventorytypes.go`)
-/

namespace Gocfl

/-- An OCFL validation code, `E036` being `.E 36` (pkg/ocfl/validationerror.go:11-136). -/
inductive Code where
  | E (n : Nat)
  | W (n : Nat)
  deriving DecidableEq, Repr

/-- One reported finding: recorded as error or as warning, its code and the values put into the
description.  Simplification: the English text and the file system in the context are left out. -/
structure Fnd where
  isErr : Bool
  code : Code
  args : List Str
  deriving DecidableEq, Repr

def err (n : Nat) (args : List Str) : Fnd := ⟨true, .E n, args⟩
def warn (n : Nat) (args : List Str) : Fnd := ⟨false, .W n, args⟩

/-- What decoding one entry of `versions` left behind besides its values: nil pointers (absent keys or
JSON `null`) and decoding errors (pkg/ocfl/inventorytypes.go:23-142). -/
structure VMeta where
  isNil : Bool := false
  createdNil : Bool := false
  createdErr : Bool := false
  userNil : Bool := false
  userErr : Bool := false
  nameErr : Bool := false
  addrErr : Bool := false
  messageNil : Bool := false
  messageErr : Bool := false
  stateNil : Bool := false
  stateErr : Bool := false
  deriving DecidableEq, Repr

/-- A decoded inventory file as `Finalize` finds it: the values (nil pointers having their zero value) and
the nil pointers and decoding errors. -/
structure RawInv where
  inv : Inv
  vmeta : AMap Str VMeta
  headNil : Bool := false
  headErr : Bool := false
  manifestNil : Bool := false
  versionsNil : Bool := false
  deriving DecidableEq, Repr

/-- The decoding outcome of a version (nothing unusual if not listed). -/
def RawInv.vm (r : RawInv) (ver : Str) : VMeta := (mget r.vmeta ver).getD {}

/-- Answers of the libraries for parsing URIs: `addrOk` — pkg/ocfl/inventorybase.go:504-513, the user
address looks like a mail address or parses as URL with a scheme; `idOk` — 304, the id parses. -/
structure Env where
  addrOk : Str → Bool
  idOk : Str → Bool

/-- `strconv.Atoi(strings.TrimLeft(ver, "v0"))` (pkg/ocfl/inventorybase.go:135) -/
def verNumber (ver : Str) : Option Int := atoi (trimLeft ver "v0".toList)

/-- pkg/ocfl/inventorybase.go:134-156, one iteration of the loop of `Finalize` -/
def finalizeVersion (m : VMeta) (ver : Str) : Res (List Fnd) :=
  match verNumber ver with
  | none => .ok [err 104 [ver]]
  | some _ =>
    if m.isNil then .error (.panic "nil dereference: version")
    else .ok ((if m.userNil then [warn 7 [ver]] else []) ++ (if m.messageNil then [warn 7 [ver]] else []))

/-- Runs a check on each element and collects the findings, stopping at the first panic. -/
def collect {α : Type} (f : α → Res (List Fnd)) : List α → Res (List Fnd)
  | [] => .ok []
  | a :: l => f a >>= fun x => collect f l >>= fun y => .ok (x ++ y)

/-- `path[1:]` if the path begins with a slash (pkg/ocfl/inventorybase.go:376-379) -/
def dropSlash (path : Str) : Str := if path.head? = some '/' then path.drop 1 else path

/-- the element of a path is empty, `.` or `..` -/
def badElement (e : Str) : Bool := decide (e = []) || decide (e = ".".toList) || decide (e = "..".toList)

/-- pkg/ocfl/inventorybase.go:370-385, 416-431 and 534-549: checks of one path.  `c1` is the code for
leading or trailing slashes, `c2` for bad elements.  The test for the empty path comes after the index
expression `path[0]`, which panics on it. -/
def checkPath (c1 c2 : Nat) (path : Str) : Res (List Fnd) :=
  if path = [] then .error (.panic "index out of range")
  else .ok (
    (if path.head? = some '/' ∨ path.getLast? = some '/' then [err c1 [path]] else []) ++
    ((splitOn '/' (dropSlash path)).filter badElement).map (fun _ => err c2 [path]))

/-- `versionZeroRegexp = ^v0[0-9]+$` (pkg/ocfl/inventorybase.go:287) -/
def zeroName : Str → Bool
  | 'v' :: '0' :: r => isDigits r
  | _ => false

/-- `versionNoZeroRegexp = ^v[1-9][0-9]*$` (pkg/ocfl/inventorybase.go:288) -/
def noZeroName : Str → Bool
  | 'v' :: c :: r => c.isDigit && decide (c ≠ '0') && r.all Char.isDigit
  | _ => false

/-- pkg/ocfl/inventorybase.go:463-488: the padding seen so far (−1: none) and the findings -/
def padStep (pad : Int) (ver : Str) : Int × List Fnd :=
  if zeroName ver then
    if pad = -1 then ((ver.length : Int) - 2, [])
    else if pad ≠ (ver.length : Int) - 2 then (pad, [err 12 [ver], err 13 [ver]])
    else (pad, [])
  else if noZeroName ver then
    if pad = -1 then (0, [])
    else if pad ≠ 0 then (pad, [err 11 [ver], err 12 [ver], err 13 [ver]])
    else (pad, [])
  else (pad, [err 104 [ver]])

/-- pkg/ocfl/inventorybase.go:489-522: metadata of a version -/
def metaFnd (env : Env) (m : VMeta) (ver : Str) (v : Version) : Res (List Fnd) :=
  if m.createdNil then .error (.panic "nil dereference: created")
  else .ok (
    (if m.createdErr then [err 49 [ver]] else []) ++ (if m.userErr then [err 54 [ver]] else []) ++
    (if m.nameErr then [err 54 [ver]] else []) ++ (if m.addrErr then [err 54 [ver]] else []) ++
    (if v.userAddress = [] then [warn 8 [ver]]
     else if env.addrOk v.userAddress then [] else [warn 9 [v.userAddress, ver]]) ++
    (if m.messageErr then [err 94 [ver]] else []) ++ (if m.stateErr then [err 50 [ver]] else []))

/-- pkg/ocfl/inventorybase.go:524-551: one digest of a version's state -/
def stateEntryFnd (man : DMap) (ver : Str) (e : Str × List Str) : Res (List Fnd) :=
  let f := if (bsearch (sortStr (mkeys man)) e.1).2 then []
    else if (bsearch (sortStr ((mkeys man).map toLower)) (toLower e.1)).2 then [err 96 [ver, e.1]]
    else [err 50 [ver, e.1]]
  collect (checkPath 53 52) e.2 >>= fun g => .ok (f ++ g)

/-- pkg/ocfl/inventorybase.go:489-551: everything about one version except padding -/
def versionFnd (env : Env) (r : RawInv) (e : Str × Version) : Res (List Fnd) :=
  match verNumber e.1 with
  | none => .ok []
  | some _ =>
    metaFnd env (r.vm e.1) e.1 e.2 >>= fun a =>
    collect (stateEntryFnd r.inv.manifest e.1) e.2.state >>= fun b => .ok (a ++ b)

/-- pkg/ocfl/inventorybase.go:463-488 over all versions: padding and findings -/
def padFold : Int → List Str → Int × List Fnd
  | pad, [] => (pad, [])
  | pad, ver :: l =>
    match verNumber ver with
    | none => padFold pad l
    | some _ =>
      let s := padStep pad ver
      let t := padFold s.1 l
      (t.1, s.2 ++ t.2)

/-- pkg/ocfl/inventorybase.go:462: the numbers of the versions -/
def versionNumbers (inv : Inv) : List Int := (mkeys inv.versions).filterMap verNumber

/-- pkg/ocfl/inventorybase.go:555-561: `for key, val := range versions { if key != val-1 {...; break} }` -/
def sequenceFnd (nums : List Int) : List Fnd :=
  if (sortInt nums).zipIdx.any (fun x => decide ((x.2 : Int) ≠ x.1 - 1)) then
    [err 10 ((sortInt nums).map fmtInt)] else []

/-- pkg/ocfl/inventorybase.go:568-577: the most recent version -/
def recentVersion (inv : Inv) : Str :=
  (getVersionStrings inv).foldl
    (fun rec ver => if rec = [] then ver else if !versionLessOrEqual inv ver rec then ver else rec) []

/-- pkg/ocfl/inventorybase.go:578-585 -/
def headFnd (inv : Inv) : List Fnd :=
  (if inv.head ≠ recentVersion inv ∧ inv.head ≠ [] then [err 40 [inv.head, recentVersion inv]] else []) ++
  (if inv.head ≠ [] ∧ inv.head ∉ getVersionStrings inv then [err 40 (inv.head :: getVersionStrings inv)] else [])

/-- consecutive pairs of a list -/
def pairs {α : Type} : List α → List (α × α)
  | a :: b :: l => (a, b) :: pairs (b :: l)
  | _ => []

/-- pkg/ocfl/inventorybase.go:588-600, for one version: conflicting logical paths -/
def logicalFnd (s : DMap) : List Fnd :=
  ((pairs (sortStr (statePaths s))).filter
    (fun p => hasPrefix p.2 (trimSuffix p.1 "/".toList ++ "/".toList))).map (fun p => err 95 [p.1, p.2])

/-- pkg/ocfl/inventorybase.go:588-600, one version: `version.State.State` panics for a `null` entry, and for an
entry without state whose name has no number (150-155 give the others an empty state) -/
def logicalVersionFnd (r : RawInv) (e : Str × Version) : Res (List Fnd) :=
  if (r.vm e.1).isNil ∨ ((r.vm e.1).stateNil ∧ verNumber e.1 = none) then
    .error (.panic "nil dereference: state")
  else .ok (logicalFnd e.2.state)

/-- pkg/ocfl/inventorybase.go:562: the padding stored in the inventory -/
def computedPadding (inv : Inv) : Int := (padFold (-1) (mkeys inv.versions)).1

/-- pkg/ocfl/inventorybase.go:438-603 `checkVersions`.  Simplification: the findings about padding are
listed before the other findings about the versions (they alternate in the code). -/
def checkVersions (env : Env) (r : RawInv) : Res (List Fnd) :=
  let inv := r.inv
  collect (versionFnd env r) inv.versions >>= fun vf =>
  if r.headNil then .error (.panic "nil dereference: head")
  else collect (logicalVersionFnd r) inv.versions >>= fun lf =>
  .ok ((if inv.versions = [] then [err 8 []] else []) ++ (padFold (-1) (mkeys inv.versions)).2 ++ vf ++
    sequenceFnd (versionNumbers inv) ++
    (if 0 < computedPadding inv then [warn 1 [fmtInt (computedPadding inv)]] else []) ++
    headFnd inv ++ lf)

/-- pkg/ocfl/inventorybase.go:356-366: the digests of the manifest; `seen` are those met before -/
def manifestDigestFnd (used : List Str) : List Str → List Str → List Fnd
  | _, [] => []
  | seen, d :: l =>
    if d ∈ seen then err 96 [d] :: manifestDigestFnd used seen l
    else (if d ∉ used then [err 107 [d]] else []) ++ manifestDigestFnd used (d :: seen) l

/-- all digests used as key in some version's state (pkg/ocfl/inventorybase.go:346-352) -/
def usedDigests (inv : Inv) : List Str := inv.versions.flatMap (fun e => mkeys e.2.state)

/-- pkg/ocfl/inventorybase.go:391-397: conflicting content paths -/
def contentFnd (paths : List Str) : List Fnd :=
  ((pairs (sortStr paths)).filter
    (fun p => hasPrefix p.1 (trimRight p.2 "/".toList ++ "/".toList))).map
      (fun p => err 101 [p.1, trimRight p.2 "/".toList ++ "/".toList])

/-- pkg/ocfl/inventorybase.go:343-399 `checkManifest`.  Simplification: findings about digests are listed
before those about paths. -/
def checkManifest (inv : Inv) : Res (List Fnd) :=
  collect (checkPath 100 99) (inv.manifest.flatMap (·.2)) >>= fun pf =>
  .ok (manifestDigestFnd (usedDigests inv) [] (mkeys inv.manifest) ++ pf ++
    contentFnd (inv.manifest.flatMap (·.2)))

/-- pkg/ocfl/helper.go:221-228 `sliceInsertSorted` -/
def sliceInsertSorted (l : List Str) (v : Str) : List Str :=
  l.take (bsearch l v).1 ++ v :: l.drop (bsearch l v).1

/-- pkg/ocfl/inventorybase.go:405-413: digests differing in case only -/
def fixityDigestFnd (alg : Str) : List Str → List Str → List Fnd
  | _, [] => []
  | seen, d :: l =>
    if (bsearch seen (toLower d)).2 then err 97 [alg, d] :: fixityDigestFnd alg seen l
    else fixityDigestFnd alg (sliceInsertSorted seen (toLower d)) l

/-- pkg/ocfl/inventorybase.go:401-436 `checkFixity`.  Simplification as in `checkManifest`. -/
def checkFixity (inv : Inv) : Res (List Fnd) :=
  collect (fun (e : Str × DMap) =>
    collect (checkPath 100 99) (e.2.flatMap (·.2)) >>= fun pf =>
      .ok (fixityDigestFnd e.1 [] (mkeys e.2) ++ pf)) inv.fixity

/-- pkg/ocfl/inventorybase.go:300-339: the scalar fields -/
def checkScalars (env : Env) (r : RawInv) : List Fnd :=
  let inv := r.inv
  (if inv.id = [] then [err 36 ["id".toList]] else []) ++
  (if inv.id ≠ [] ∧ env.idOk inv.id = false then [warn 5 [inv.id]] else []) ++
  (if r.headErr then [err 40 []] else if inv.head = [] then [err 36 ["head".toList]] else []) ++
  (if inv.spec = [] then [err 36 ["type".toList]] else []) ++
  (if inv.digestAlg = [] then [err 36 ["digestAlgorithm".toList]] else []) ++
  (if inv.digestAlg ≠ "sha512".toList ∧ inv.digestAlg ≠ "sha256".toList then [err 25 [inv.digestAlg]]
   else if inv.digestAlg = "sha256".toList then [⟨true, .W 4, [inv.digestAlg]⟩] else []) ++
  (if inv.contentDirectory ≠ [] ∧ (inv.contentDirectory = ".".toList ∨ inv.contentDirectory = "..".toList ∨
      '/' ∈ inv.contentDirectory) then [err 17 [inv.contentDirectory]] else [])

/-- pkg/ocfl/inventorybase.go:290-342 `check` -/
def check (env : Env) (r : RawInv) : Res (List Fnd) :=
  checkVersions env r >>= fun a =>
  checkManifest r.inv >>= fun b =>
  checkFixity r.inv >>= fun c => .ok (a ++ b ++ c ++ checkScalars env r)

/-- pkg/ocfl/inventorybase.go:157-161: fixity algorithms found in the file are added -/
def addFixityAlgs (inv : Inv) : List Str :=
  (mkeys inv.fixity).foldl (fun l a => if a ∈ l then l else l ++ [a]) inv.fixityAlgs

/-- pkg/ocfl/inventorybase.go:118-169 `Finalize(false)`: the inventory as used afterwards, and the findings. -/
def finalize (env : Env) (r : RawInv) : Res (Inv × List Fnd) :=
  collect (fun (e : Str × Version) => finalizeVersion (r.vm e.1) e.1) r.inv.versions >>= fun a =>
  check env r >>= fun b =>
  .ok ({ r.inv with fixityAlgs := addFixityAlgs r.inv, paddingLength := computedPadding r.inv },
    (if r.manifestNil then [err 41 ["manifest".toList]] else []) ++
    (if r.versionsNil then [err 41 ["versions".toList]] else []) ++ a ++ b)

/-! ## Comparing versions and inventories -/

/-- pkg/ocfl/helper.go:212-219 `sliceContains` -/
def sliceContains (s vs : List Str) : Bool := vs.all (fun v => decide (v ∈ s))

/-- pkg/ocfl/inventorytypes.go:144-155 `EqualMeta` -/
def equalMeta (v w : Version) : Bool :=
  decide (v.created = w.created) && decide (v.message = w.message) && decide (v.userName = w.userName) &&
    decide (v.userAddress = w.userAddress)

/-- pkg/ocfl/inventorytypes.go:156-190 `EqualState` -/
def equalState (v w : Version) : Bool :=
  let files := slicesCompact (sortStr (statePaths v.state))
  let files2 := slicesCompact (sortStr (statePaths w.state))
  decide (v.state.length = w.state.length) && decide (files.length = files2.length) &&
    sliceContains files files2

/-- pkg/ocfl/inventorybase.go:75-88: the loop over the first manifest (the lengths of the manifests are
not compared: line 76 compares the first one with itself) -/
def equalManifest (m m2 : DMap) : Bool :=
  m.all (fun e => match mget m2 e.1 with
    | none => false
    | some vals2 => sliceContains e.2 vals2 && decide (e.2.length = vals2.length))

/-- pkg/ocfl/inventorybase.go:92-108 -/
def equalVersions (vs vs2 : AMap Str Version) : Bool :=
  decide (vs.length = vs2.length) && vs.all (fun e => match mget vs2 e.1 with
    | none => false
    | some v2 => equalMeta e.2 v2 && equalState e.2 v2)

/-- pkg/ocfl/inventorybase.go:58-110 `isEqual` (manifest and versions are never nil after `Finalize`) -/
def invEqual (i i2 : Inv) : Bool :=
  (sliceContains i.fixityAlgs i2.fixityAlgs && decide (i.fixityAlgs.length = i2.fixityAlgs.length)) &&
  decide (i.spec = i2.spec) && decide (i.head = i2.head) &&
  decide (i.contentDirectory = i2.contentDirectory) && equalManifest i.manifest i2.manifest &&
  equalVersions i.versions i2.versions

/-! ## Comparing with the files found -/

/-- digest algorithm → digest → files having it -/
abbrev FileManifest := AMap Str DMap

/-- pkg/ocfl/inventorybase.go:615-626, one digest of the manifest -/
def checkManifestFiles (cs : DMap) (e : Str × List Str) : List Fnd :=
  match mget cs (toLower e.1) with
  | none => [err 92 (e.1 :: e.2)]
  | some names => (e.2.filter (fun f => !decide (f ∈ names))).map (fun f => err 92 [f])

/-- pkg/ocfl/inventorybase.go:633-647, one digest of the fixity block -/
def checkFixityFiles (cs : DMap) (e : Str × List Str) : List Fnd :=
  match (mget cs e.1).orElse (fun _ => mget cs (toLower e.1)) with
  | none => [err 93 (e.1 :: e.2)]
  | some names => (e.2.filter (fun f => !decide (f ∈ names))).map (fun f => err 93 [f])

/-- pkg/ocfl/inventorybase.go:628-649, one algorithm of the fixity block -/
def checkFixityAlg (fm : FileManifest) (e : Str × DMap) : Res (List Fnd) :=
  match mget fm e.1 with
  | none => .error (.error "checksum not created")
  | some cs => .ok (e.2.flatMap (checkFixityFiles cs))

/-- pkg/ocfl/inventorybase.go:605-651 `CheckFiles` -/
def checkFiles (inv : Inv) (fm : FileManifest) : Res (List Fnd) :=
  match mget fm inv.digestAlg with
  | none => if fm = [] then .ok [] else .error (.error "checksum not created")
  | some cs =>
    collect (checkFixityAlg fm) inv.fixity >>= fun f =>
    .ok (inv.manifest.flatMap (checkManifestFiles cs) ++ f)

end Gocfl
