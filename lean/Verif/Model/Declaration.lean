import Verif.Go.Strings

/-!
# Model of the conformance declarations
(`pkg/ocfl/helper.go:168-204`, writers `pkg/ocfl/storagerootbase.go:101-106`, `pkg/ocfl/objectbase.go:431-460`)
-/

namespace Gocfl

/-- one entry of `fs.ReadDir`; the content of a file, `none` if reading it fails -/
structure DirEnt where
  name : Str
  isDir : Bool
  content : Option Str
  deriving DecidableEq, Repr

/-- the regular expression `[0-9]+\.[0-9]+` at the start of a string, what it matches -/
def numMatch (s : Str) : Option Str :=
  let a := s.takeWhile Char.isDigit
  if a = [] then none
  else match s.dropWhile Char.isDigit with
    | '.' :: r =>
      let b := r.takeWhile Char.isDigit
      if b = [] then none else some (a ++ '.' :: b)
    | _ => none

/-- the regular expression `0=prefix([0-9]+\.[0-9]+)` at the start of a string, its group.  The prefixes in use
contain no special characters. -/
def declHere (pre s : Str) : Option Str :=
  if ("0=".toList ++ pre).isPrefixOf s then numMatch (s.drop ("0=".toList ++ pre).length) else none

/-- `r.FindStringSubmatch(name)`: the leftmost match anywhere in the name -/
def declFind (pre : Str) : Str → Option Str
  | [] => declHere pre []
  | c :: s =>
    match declHere pre (c :: s) with
    | some v => some v
    | none => declFind pre s

/-- what `getVersion` returns -/
inductive VersionResult where
  | version (v : Str)
  | none
  | multiple
  | invalid (v : Str)
  | unreadable
  deriving DecidableEq, Repr

/-- pkg/ocfl/helper.go:178-203: the loop over the directory entries; `v` is the version found so far (empty: none) -/
def getVersionLoop (pre : Str) : Str → List DirEnt → VersionResult
  | v, [] => if v = [] then .none else .version v
  | v, e :: es =>
    if e.isDir then getVersionLoop pre v es
    else match declFind pre e.name with
      | Option.none => getVersionLoop pre v es
      | some x =>
        if v ≠ [] then .multiple
        else match e.content with
          | Option.none => .unreadable
          | some c =>
            if c ≠ pre ++ x ++ "\n".toList ∧ c ≠ pre ++ x ++ "\r\n".toList then .invalid x
            else getVersionLoop pre x es

/-- pkg/ocfl/helper.go:168-204 `getVersion` of a folder that can be read -/
def getVersion (pre : Str) (es : List DirEnt) : VersionResult := getVersionLoop pre [] es

/-- the declaration written by `Init` of storage root and object -/
def ownDecl (pre v : Str) : DirEnt :=
  ⟨"0=".toList ++ (pre ++ v), false, some (pre ++ v ++ "\n".toList)⟩

/-- pkg/ocfl/storageroot.go:42 `^0=ocfl_([0-9]+\.[0-9]+)$` -/
def declExact (pre s : Str) : Option Str :=
  match declHere pre s with
  | some v => if s = "0=".toList ++ (pre ++ v) then some v else none
  | none => none

end Gocfl
