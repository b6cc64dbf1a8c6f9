import Verif.Model.Metadata
import Verif.Model.Load

/-!
# Model of the report of the web display

`Server.report` and `Server.displayObject` (gocfl/cmd/display/server.go:743-1100): the tree of folders, the numbers, and the
descriptive metadata of the object.
-/

namespace Gocfl

/-! ## The tree -/

/-- server.go:992-997 `edge`, as first child and next sibling: the children of an edge; name and indent of each.  The pointer to
the parent is not used. -/
inductive RForest where
  | nil
  | cons (name : Str) (indent : Nat) (children next : RForest)
  deriving DecidableEq

/-- server.go:1016-1027: new edges below an edge with indent `i`, for the remaining parts -/
def chainFrom : Nat → List Str → RForest
  | _, [] => .nil
  | i, p :: ps => .cons p (i + 1) (chainFrom (i + 1) ps) .nil

/-- server.go:1006-1028 `addToTree`, below an edge with indent `i` and these children -/
def addToTree : RForest → Nat → List Str → RForest
  | .nil, i, parts => chainFrom i parts
  | .cons n k ch nx, _, [] => .cons n k ch nx
  | .cons n k ch nx, i, p :: ps =>
    if n = p then .cons n k (addToTree ch k ps) nx else .cons n k ch (addToTree nx i (p :: ps))

/-- server.go:1022-1024: the greatest depth, while edges are created -/
def chainDepth : Nat → List Str → Nat → Nat
  | _, [], m => m
  | i, _ :: ps, m => chainDepth (i + 1) ps (if m ≤ i then i + 1 else m)

/-- the greatest depth after `addToTree` -/
def depthAfter : RForest → Nat → List Str → Nat → Nat
  | .nil, i, parts, m => chainDepth i parts m
  | .cons _ _ _ _, _, [], m => m
  | .cons n k ch nx, i, p :: ps, m => if n = p then depthAfter ch k ps m else depthAfter nx i (p :: ps) m

/-- server.go:1034-1037: the parts of a name; without the file itself in the short report -/
def nameParts (full : Bool) (q : Str) : List Str := if full then splitOn '/' q else (splitOn '/' q).dropLast

/-- server.go:1030-1041: the tree and the greatest depth, names in the order of the maps -/
def reportTree (full : Bool) : List Str → RForest × Nat → RForest × Nat
  | [], t => t
  | q :: qs, t => reportTree full qs (addToTree t.1 0 (nameParts full q), depthAfter t.1 0 (nameParts full q) t.2)

/-- server.go:1043-1047 `flatEdge` -/
structure FlatEdge where
  left : Nat
  right : Int
  name : Str
  deriving DecidableEq

/-- server.go:1050-1062 `flattenTree`; the difference of unsigned numbers, converted to `int`, is that of integers.  The root,
without a name, gives no line. -/
def flattenTree (m : Nat) : RForest → List FlatEdge
  | .nil => []
  | .cons n k ch nx =>
    (if trimSpace n ≠ [] then [⟨k, (m : Int) - k, n⟩] else []) ++ flattenTree m ch ++ flattenTree m nx

/-- server.go:1030-1033: the names of the files of all versions -/
def reportNames {V : Type} (m : ObjMeta V) : List Str := m.files.flatMap (fun e => e.2.versionName.flatMap (fun v => v.2))

/-- the lines of the report; `names` are `reportNames` in the order of the maps -/
def reportLines (full : Bool) (names : List Str) : List FlatEdge :=
  flattenTree (reportTree full names (.nil, 0)).2 (reportTree full names (.nil, 0)).1

/-! ## The numbers -/

/-- what the report reads of the indexer's result (`indexer.ResultV2`) -/
structure IdxRes where
  size : Nat
  mime : Str
  pronom : Str
  deriving DecidableEq

/-- what extensions report for a content: the extension filesystem a map from versions to lines, each with a path and a size
(pkg/extension/NNNN-filesystem.go:219-284), the indexer its result -/
inductive RepVal where
  | fsLines (lines : AMap Str (List (Str × Nat)))
  | index (r : IdxRes)

/-- the numbers (server.go:860-866); the duration of videos left out, sizes without overflow -/
structure RepNumbers where
  numFiles : Nat
  size : Nat
  noSize : Nat
  mimes : AMap Str Nat
  pronoms : AMap Str Nat

/-- server.go:885-905: counting a type, if there is one -/
def countType (a : AMap Str Nat) (t : Str) : AMap Str Nat := if t = [] then a else mset a t ((mget a t).getD 0 + 1)

/-- server.go:866-910: one content.  The value of the extension filesystem is no `map[string]any` (873): it is not used. -/
def countFile (s : RepNumbers) (f : FileMeta RepVal) : RepNumbers :=
  match mget f.ext "NNNN-indexer".toList with
  | some (.index r) =>
    { numFiles := s.numFiles + f.internal.length, size := s.size + r.size, noSize := if 0 < r.size then s.noSize else s.noSize + 1,
      mimes := countType s.mimes r.mime, pronoms := countType s.pronoms r.pronom }
  | _ => { s with numFiles := s.numFiles + f.internal.length, noSize := s.noSize + 1 }

/-- the numbers, contents in the order of the map -/
def reportNumbers (fs : List (FileMeta RepVal)) : RepNumbers := fs.foldl countFile ⟨0, 0, 0, [], []⟩

/-! ## The descriptive metadata -/

/-- server.go:964-971: the file with the metadata, versions in the order of the map; `mPath` is its path in the manifest, without
version and content folder -/
def reportInfo (ofs : FS) (mPath : Str) (vs : List Str) : Bytes :=
  vs.foldl (fun acc v => match mget ofs (pathJoin [v, "content".toList, mPath]) with
    | some b => if b = [] then acc else b
    | none => acc) []

end Gocfl
