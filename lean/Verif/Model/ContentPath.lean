import Verif.Go.Path
import Verif.Model.Inventory

/-! # Content paths and the content-subpath extension -/

namespace Gocfl

/-- pkg/ocfl/inventorybase.go:708-710 `BuildManifestNameVersion` -/
def buildManifestNameVersion (inv : Inv) (stateFilename version : Str) : Str :=
  pathClean (pathJoin [version, inv.contentDir, stateFilename])

/-- pkg/ocfl/inventorybase.go:704-706 `BuildManifestName` -/
def buildManifestName (inv : Inv) (stateFilename : Str) : Str :=
  buildManifestNameVersion inv stateFilename inv.head

/-- pkg/extension/NNNN-content-subpath.go:24-51 `ContentSubPath`: the default area and the path of each
area.  Simplification: the description of each area is left out. -/
structure SubPathExt where
  area : Str
  paths : AMap Str Str
  deriving DecidableEq, Repr

/-- Results of the path mapping functions of extensions. -/
inductive PathErr where
  | invalidArea
  | wrongArea
  deriving DecidableEq, Repr

/-- pkg/extension/NNNN-content-subpath.go:126-139 and 165-178 `BuildObjectManifestPath` and
`BuildObjectStatePath` (identical code) -/
def SubPathExt.build (e : SubPathExt) (originalPath area : Str) : Except PathErr Str :=
  let area := if area = [] then e.area else area
  if area = "full".toList then .ok originalPath
  else match mget e.paths area with
    | none => .error .invalidArea
    | some sub => .ok (pathJoin [sub, originalPath])

/-- pkg/extension/NNNN-content-subpath.go:180-197 `BuildObjectExtractPath` -/
def SubPathExt.extract (e : SubPathExt) (originalPath area : Str) : Except PathErr Str :=
  let area := if area = [] then e.area else area
  if area = "full".toList then .ok originalPath
  else match mget e.paths area with
    | none => .error .invalidArea
    | some sub =>
      let p := trimLeft originalPath "/".toList
      if hasPrefix p sub then .ok (trimLeft (trimPrefix p sub) "/".toList)
      else .error .wrongArea

end Gocfl
