import Verif.Model.Session

/-!
# The README.md of the content-subpath extension

`ContentSubPath.UpdateObjectAfter` (pkg/extension/NNNN-content-subpath.go:145-163) describes the folders of the
object in a file `README.md`, at the end of every update.
-/

namespace Gocfl

/-- `ContentSubPathEntry` (pkg/extension/NNNN-content-subpath.go:17-20) -/
structure SubFolder where
  path : Str
  description : Str
  deriving DecidableEq, Repr

/-- What the markdown writer (`doc.NewMarkDown`, a library) writes: the title with the empty lines after it, a
heading, and text. -/
structure MdWriter where
  lead : Bytes
  heading : Str → Bytes
  text : Str → Bytes

/-- pkg/extension/NNNN-content-subpath.go:146-155.  `folders`: the entries of `sl.Paths` in the order in which Go
ranges over the map, another one each time. -/
def readmeText (m : MdWriter) (folders : List SubFolder) : Bytes :=
  m.lead ++ folders.flatMap (fun e => m.heading e.path ++ m.text e.description ++ asBytes "\n\n".toList)

def readmeName : Str := "README.md".toList

/-- pkg/extension/NNNN-content-subpath.go:159: `AddData` with a check for duplicates, area `full` -/
def readmeCall (text : Bytes) : Call := .add readmeName "full".toList text true

end Gocfl
