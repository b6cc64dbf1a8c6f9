import Verif.Model.Display
import Verif.Model.Filesystem

/-!
# Model of the detail page of a file

gocfl/cmd/display/server.go:284-439 `detail`: what is shown about one content of an object.  The answers of the extensions
indexer, migration and thumbnail, which the page shows as they are, are of a type `X` and left out of the page.
-/

namespace Gocfl

/-- What extensions report about a file: the filesystem extension a map from version to lines
(pkg/extension/NNNN-filesystem.go:279-283), the others something else. -/
inductive ExtVal (M X : Type) where
  | lines (m : AMap Str (List (FsLine M)))
  | other (x : X)

section
variable {M X : Type}

/-- pkg/extension/NNNN-filesystem.go:22 -/
def fsExtName : Str := "NNNN-filesystem".toList

/-- pkg/extension/NNNN-filesystem.go:265-271: a line is added for a digest, under the version it says -/
def fsNestStep (a : AMap Str (AMap Str (List (FsLine M)))) (x : Str × FsLine M) : AMap Str (AMap Str (List (FsLine M))) :=
  mset a x.1 (mset ((mget a x.1).getD []) x.2.version ((mget ((mget a x.1).getD []) x.2.version).getD [] ++ [x.2]))

/-- pkg/extension/NNNN-filesystem.go:219-284: the map that `GetMetadata` makes of the lines of `fsMetadata` -/
def fsNest (r : List (Str × FsLine M)) : AMap Str (AMap Str (List (FsLine M))) := r.foldl fsNestStep []

/-- pkg/extension/NNNN-filesystem.go:219-284 `GetMetadata`, as the extension manager gets it -/
def fsReport (k : FsStore M) (s : RecSt (FsLine M)) (inv : Inv) (fs : FS) : Res (AMap Str (ExtVal M X)) :=
  fsMetadata k s inv fs >>= fun r => .ok ((fsNest r).map (fun e => (e.1, .lines e.2)))

/-- gocfl/cmd/display/server.go:346-350: the lines of the filesystem extension (`nil` if there are none or something else) -/
def fileLinesOf (f : FileMeta (ExtVal M X)) : AMap Str (List (FsLine M)) :=
  match mget f.ext fsExtName with
  | some (.lines m) => m
  | _ => []

/-- gocfl/cmd/display/server.go:361-377: the line shown with a name -/
def lineFor (ls : List (FsLine M)) (name : Str) : Option M := (ls.find? (fun l => decide (l.path = name))).map (·.info)

/-- gocfl/cmd/display/server.go:334-344 `detailStatus` without the fields of the other extensions; a name with what the
filesystem extension recorded -/
structure DetailPage (M : Type) where
  checksum : Str
  alg : Str
  internal : List Str
  names : AMap Str (List (Str × Option M))
  fixity : AMap Str Str

/-- gocfl/cmd/display/server.go:310-382 -/
def detailPage (m : ObjMeta (ExtVal M X)) (c : Str) : Option (DetailPage M) :=
  (mget m.files c).map fun f =>
    { checksum := c, alg := m.alg, internal := f.internal,
      names := f.versionName.map (fun e => (e.1, e.2.map (fun q => (q, lineFor ((mget (fileLinesOf f) e.1).getD []) q)))),
      fixity := f.checksums }

/-- the steps of a request until object and metadata are at hand (gocfl/cmd/display/server.go:285-308, as in the other handlers) -/
def untilUse (E : DispEnv X) (fs : FS) (r : DispReq) : Nat → DispSt X × DispPc → DispSt X × DispPc
  | 0, x => x
  | n + 1, x =>
    match x.2 with
    | .use => x
    | pc => untilUse E fs r n (dispStep E fs r x.1 pc)

/-- the answers -/
inductive DetailAns (M : Type) where
  | page (id : Str) (p : DetailPage M)
  | bad
  | panic

/-- gocfl/cmd/display/server.go:284-439 `detail`, handled alone: what is kept afterwards, and the answer -/
def detailServe (E : DispEnv (ExtVal M X)) (fs : FS) (id c : Str) (s : DispSt (ExtVal M X)) : DispSt (ExtVal M X) × DetailAns M :=
  let t := untilUse E fs (.manifest id) 4 (s, .start)
  (t.1, match t.2 with
    | .use =>
      match t.1.metadata, t.1.object with
      | some m, some o =>
        (match detailPage m c with
        | some p => .page o.inv.id p
        | none => .bad)
      | _, _ => .panic
    | .done .bad => .bad
    | _ => .panic)

end

end Gocfl
