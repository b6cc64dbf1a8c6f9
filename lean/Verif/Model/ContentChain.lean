import Verif.Model.DirectClean
import Verif.Model.JsonL

/-! # Content paths and logical paths of an object with the configurations that come with the program -/

namespace Gocfl

/-- pkg/extension/NNNN-direct-clean-path-layout.go:199-201 `BuildObjectManifestPath`: the area does not matter -/
def cleanPathExt (hash : Str → Str) (c : DCCfg) : PathExt := ⟨some (fun p _ => dcBuild hash c p), none⟩

/-- data/*/object/NNNN-gocfl-extension-manager/config.json, `ObjectContentPath`: direct-clean first, then content-subpath, which
is not part of data/defaultextensions -/
def objectContentPath (hash : Str → Str) (c : DCCfg) (sub : Option SubPathExt) (p area : Str) : Res Str :=
  manifestChain (cleanPathExt hash c :: sub.toList.map SubPathExt.toPathExt) p area false

/-- pkg/extension/NNNN-gocfl-extension-manager.go:388-402 `BuildObjectStatePath`: the same code over the extensions that change
logical paths, of which there is only content-subpath, whose two functions are the same (NNNN-content-subpath.go:126-139,
165-178) -/
def objectStatePath (sub : Option SubPathExt) (p area : Str) : Res Str := manifestChain (sub.toList.map SubPathExt.toPathExt) p area false

/-- data/defaultextensions/object/NNNN-direct-clean-path-layout/config.json (the same in the other configurations but for the
name of the length of segments, which does not matter as 127 is also the default) -/
def shippedClean : DCCfg :=
  newDC { maxPathname := 32000, maxSegment := 127, repl := "_".toList, white := " ".toList, utf := true, folder := [], tuples := 0, tupleSize := 0 }

/-- data/fullextensions/object/NNNN-content-subpath/config.json with the default area of `SetParams`
(NNNN-content-subpath.go:96-103) -/
def shippedSub : SubPathExt :=
  ⟨"content".toList, [("content".toList, "data".toList), ("metadata".toList, "metadata".toList), ("documentation".toList, "documentation".toList)]⟩

end Gocfl
