import Verif.Model.Manager
import Verif.Model.ExtLoad
import Verif.Model.LayoutConfig

/-!
# Model of the layouts a storage root works with
(`pkg/ocfl/extensionFactory.go:42-76`, `pkg/extension/NNNN-gocfl-extension-manager.go:111-152, 254-282`, the constructors of the layouts)

The extensions of a storage root here are layouts.  A configuration file was written by somebody (`inl`, its fields), or by
the layout in memory (`inr`: `WriteConfig`).  Simplification: `slices.SortFunc` is not stable, but it works on what the
comparison says and this depends only on the names; so its outcome is a function of the names (`Organiser`).
-/

namespace Gocfl

/-- the other fields of the configuration of a layout: those of a file, or those a layout writes -/
abbrev LayoutState := CfgFile ⊕ Layout

/-- the configuration file -/
def LayoutState.file (n : Str) : Option LayoutState → CfgFile
  | none => ⟨n, [], [], []⟩
  | some (.inl f) => { f with name := n }
  | some (.inr l) => { writeConfig l with name := n }

/-- pkg/ocfl/extensionFactory.go:42-76 `Create` with the creators of the layouts (gocfl/cmd/helper.go:73-111) -/
def makeLayout (hashes : Str → Option (Str → Str)) (n : Str) (r : Option LayoutState) : Option LayoutState :=
  match loadLayout hashes (LayoutState.file n r) with
  | .ok l => some (.inr l)
  | .error _ => none

/-- pkg/ocfl/extension.go:28 `ExtensionStorageRootPathName` -/
def hookRoot : Str := "StorageRootPath".toList

/-- NNNN-gocfl-extension-manager.go:254-267 `organize`: exclusion and sorting, as a function of the names -/
structure Organiser where
  run : Option (List (List Str)) → Option (List Str) → List Str → List Str
  organized : ∀ ex so l, Organized id ex so l (run ex so l)

/-- NNNN-gocfl-extension-manager.go:111-152 `Add`: the layouts among the extensions, in order -/
def layoutExts (m : ExtMgr LayoutState) : AMap Str Layout :=
  m.exts.filterMap (fun e => match e with
    | .other n (.inr l) => some (n, l)
    | _ => none)

/-- NNNN-gocfl-extension-manager.go:269-271 `Finalize`: the names of the layouts in use, in order -/
def usedNames (org : Organiser) (m : ExtMgr LayoutState) : List Str :=
  org.run (mget m.exclusion hookRoot) (mget m.sort hookRoot) (mkeys (layoutExts m))

/-- … and what they do, for `BuildStorageRootPath` of the manager (`rootPath`) -/
def usedLayouts (org : Organiser) (hashes : Str → Option (Str → Str)) (m : ExtMgr LayoutState) : List (Str → Res Str) :=
  (usedNames org m).filterMap (fun n => (mget (layoutExts m) n).map (layoutPath hashes))

end Gocfl
