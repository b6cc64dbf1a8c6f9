import Verif.Model.Root

/-!
# Model of the validation of an object (`pkg/ocfl/objectbase.go:1011-1424`)

The object's folder is a map from paths to contents; directories exist as far as files need them, so the finding about
empty content folders (W003) does not occur.  Maps are traversed in the order of the version numbers; the findings are
the same in every order.  What decoding left undecoded in a version inventory (nil pointers of versions whose names
have no number) is not carried over, so `EqualMeta` and `EqualState` do not panic on them here.
-/

namespace Gocfl

/-- the files below a directory (`fs.WalkDir`) -/
def filesUnder (fs : FS) (dir : Str) : List Str := (mkeys fs).filter (fun p => hasPrefix p (dir ++ "/".toList))

/-- there is such a directory -/
def hasDir (fs : FS) (dir : Str) : Bool := (mkeys fs).any (fun p => hasPrefix p (dir ++ "/".toList))

/-- the part of a path before its first slash, if there is a slash -/
def firstDir (p : Str) : Option Str := if '/' ∈ p then some (p.takeWhile (fun c => c ≠ '/')) else none

/-- `fs.ReadDir`: the directories in a folder -/
def topDirs (fs : FS) : List Str := ((mkeys fs).filterMap firstDir).eraseDups

/-- `fs.ReadDir`: the files in a folder -/
def topFileNames (fs : FS) : List Str := (mkeys fs).filter (fun p => !decide ('/' ∈ p))

/-- the directories above a file -/
def parentDirs (p : Str) : List Str :=
  (List.range p.length).filterMap (fun i => if p[i]? = some '/' then some (p.take i) else none)

/-- pkg/ocfl/objectbase.go:1011 `allowedFilesRegexp`:
`^(inventory.json(\.sha512|\.sha384|\.sha256|\.sha1|\.md5)?|0=ocfl_object_[0-9]+\.[0-9]+)$` -/
def allowedFile (name : Str) : Bool :=
  ([[], ".sha512".toList, ".sha384".toList, ".sha256".toList, ".sha1".toList, ".md5".toList].any
    (fun x => x.isSuffixOf name && isInventoryName (name.take (name.length - x.length)))) ||
  (declExact objDecl name).isSome

/-- pkg/ocfl/objectbase.go:1013-1026 `checkVersionFolder` of an existing folder -/
def versionFolderFnd (fs : FS) (ver : Str) : List Fnd :=
  ((topFileNames (subFS fs ver)).filter (fun n => !allowedFile n)).map (fun n => err 15 [n, ver])

/-- pkg/ocfl/objectbase.go:1283-1302: one directory of the object folder -/
def topDirFnd (fs : FS) (versions : List Str) (d : Str) : List Fnd :=
  (if d ∈ versions ∨ d = "logs".toList ∨ d = "extensions".toList then []
   else err 1 [d] :: (if (verNumber d).isSome then versionFolderFnd fs d ++ [err 46 [d]] else [])) ++
  (if d ∈ versions then versionFolderFnd fs d else [])

/-- pkg/ocfl/objectbase.go:1267-1315: the checks of `Check` before `checkFilesAndVersions` -/
def folderFnd (fs : FS) (inv : Inv) : List Fnd :=
  let versions := getVersionStrings inv
  (topDirs fs).flatMap (topDirFnd fs versions) ++
  ((topFileNames fs).filter (fun n => !allowedFile n)).map (fun n => err 1 [n]) ++
  (if ((topDirs fs).filter (fun d => d ∈ versions)).length ≠ versions.length then
    [err 10 [fmtNat ((topDirs fs).filter (fun d => d ∈ versions)).length, fmtNat versions.length]] else [])

/-- `strings.HasPrefix(path, ver + "/" + contentDir)` (pkg/ocfl/objectbase.go:1069) -/
def contentFiles (fs : FS) (inv : Inv) (ver : Str) : List Str :=
  (filesUnder fs ver).filter (fun p => hasPrefix p (ver ++ '/' :: inv.contentDir))

/-- pkg/ocfl/objectbase.go:1062 -/
def extraDirs (fs : FS) (inv : Inv) (ver : Str) : List Str :=
  (((filesUnder fs ver).flatMap parentDirs).filter (fun d => hasPrefix d (ver ++ "/".toList))).eraseDups.filter
    (fun d => !hasPrefix d (ver ++ '/' :: inv.contentDir) && !hasPrefix (ver ++ '/' :: inv.contentDir) d)

/-- pkg/ocfl/objectbase.go:1049-1095, one version: a version without folder makes `fs.WalkDir` call the function with a
nil entry; the error of `fs.Stat` for a missing content folder ends the check unless it is `fs.ErrNotExist` itself -/
def walkFnd (plain : Bool) (fs : FS) (inv : Inv) (ver : Str) : Res (List Fnd) :=
  if hasDir fs ver = false then .error (.panic "nil dereference: directory entry")
  else if contentFiles fs inv ver = [] ∧ plain = false then .error (.error "cannot stat")
  else .ok ((extraDirs fs inv ver).map (fun d => warn 2 [d, ver]))

/-- pkg/ocfl/objectbase.go:285-334 `LoadInventory` of a version folder: as `loadRoot` -/
def loadVersion (w : World) (env : Env) (fs : FS) (ver : Str) : Res (Inv × List Fnd) :=
  loadRoot w env (subFS fs ver)

/-- pkg/ocfl/objectbase.go:1374-1407 `getVersionInventories`: inventories and findings.  If a missing file does not
give `fs.ErrNotExist` itself, an inventory without digest algorithm is made up; then `createContentManifest` fails for
this algorithm, which is reported here already. -/
def versionInventories (w : World) (env : Env) (plain : Bool) (fs : FS) : List Str → Res (AMap Str Inv × List Fnd)
  | [] => .ok ([], [])
  | ver :: l =>
    match mget fs (verInvPath ver) with
    | none =>
      if plain then versionInventories w env plain fs l >>= fun x => .ok (x.1, warn 10 [ver] :: x.2)
      else .error (.error "cannot read and create checksums")
    | some _ =>
      loadVersion w env fs ver >>= fun y =>
      versionInventories w env plain fs l >>= fun x => .ok ((ver, y.1) :: x.1, y.2 ++ x.2)

/-- pkg/ocfl/objectbase.go:1409-1424 `getAllDigests` -/
def allDigests (inv : Inv) (vis : AMap Str Inv) : List Str :=
  slicesCompact (sortStr (inv.digestAlg :: vis.flatMap (fun e => e.2.digestAlg :: mkeys e.2.fixity)))

/-- pkg/ocfl/objectbase.go:1357-1365: one checksum of one file -/
def addSum (f : Str) (fm : FileManifest) (x : Str × Str) : FileManifest :=
  mset fm x.1 (mset (mgetD' fm x.1) x.2 (mgetD (mgetD' fm x.1) x.2 ++ [f]))
where
  mgetD' (fm : FileManifest) (a : Str) : DMap := (mget fm a).getD []

/-- pkg/ocfl/objectbase.go:1333-1370 `createContentManifest` over the files of the version folders -/
def contentManifest (w : World) (fs : FS) (algs : List Str) : FileManifest → List Str → Res FileManifest
  | fm, [] => .ok fm
  | fm, f :: l =>
    match checksums w algs ((mget fs f).getD []) with
    | none => .error (.error "cannot read and create checksums")
    | some cs => contentManifest w fs algs (cs.foldl (addSum f) fm) l

/-- pkg/ocfl/inventorybase.go:652-702 `GetFiles` and `GetFilesFlat`: the files of the manifest, and the findings
recorded on the way; a path without slash has no second part -/
def filesFlat (inv : Inv) : Res (List Str × List Fnd) :=
  let files := inv.manifest.flatMap (·.2)
  if files.any (fun f => !decide ('/' ∈ f)) then .error (.panic "index out of range")
  else .ok (files,
    (files.filter (fun f => decide ((splitOn '/' f).length < 3))).map (fun f => err 0 [f]) ++
    (if sliceContains (getVersionStrings inv) (files.map (fun f => f.takeWhile (fun c => c ≠ '/'))) then []
     else [err 23 (getVersionStrings inv)]))

/-- pkg/ocfl/objectbase.go:1121-1152, one version folder with inventory -/
def versionDirFnd (fs : FS) (fm : FileManifest) (contentDir : Str) (e : Str × Inv) : Res (List Fnd) :=
  checkFiles e.2 fm >>= fun f =>
  .ok ((if contentDir ≠ e.2.contentDirectory then [err 19 [e.2.contentDirectory, e.1, contentDir]] else []) ++ f ++
    ((topDirs (subFS fs e.1)).filter (fun d => decide (d ≠ e.2.contentDir))).map (fun d => warn 2 [d, e.1]) ++
    ((topFileNames (subFS fs e.1)).filter (fun n => decide (n ≠ rootInvPath ∧ n ≠ rootSidecarPath e.2.digestAlg))).map
      (fun n => err 15 [n, e.1]))

/-- pkg/ocfl/objectbase.go:1154-1174: successive versions -/
def specFnd (vis : AMap Str Inv) (p : Str × Str) : List Fnd :=
  match mget vis p.1, mget vis p.2 with
  | none, _ => [warn 10 [p.1]]
  | some _, none => [warn 0 [p.2]]
  | some a, some b => if strLe a.spec b.spec then [] else [err 103 [p.1, a.spec, p.2, b.spec]]

/-- pkg/ocfl/objectbase.go:1176-1183: the last version's inventory and the root inventory -/
def lastFnd (inv : Inv) (vis : AMap Str Inv) (versions : List Str) : List Fnd :=
  match versions.getLast? with
  | none => []
  | some v =>
    match mget vis v with
    | none => []
    | some i => if invEqual i inv then [] else [err 64 [v]]

/-- pkg/ocfl/objectbase.go:1202-1213: one version in a version's inventory; a method of the nil pointer is called if the
root inventory does not know it -/
def sameVersionFnd (inv : Inv) (ver : Str) (e : Str × Version) : Res (List Fnd) :=
  match mget inv.versions e.1 with
  | none => .error (.panic "nil dereference: version")
  | some v => .ok ((if equalState v e.2 then [] else [err 66 [ver, e.1]]) ++
      (if equalMeta v e.2 then [] else [⟨true, .W 11, [ver, e.1]⟩]))

/-- pkg/ocfl/objectbase.go:1188-1214: one version's inventory and the root inventory -/
def crossFnd (inv : Inv) (e : Str × Inv) : Res (List Fnd) :=
  collect (sameVersionFnd inv e.1) e.2.versions >>= fun g =>
  .ok ((if inv.id ≠ e.2.id then [err 37 [inv.id, e.1, e.2.id]] else []) ++
    (if e.2.head ≠ [] ∧ e.2.head ≠ e.1 then [err 40 [e.2.head, e.1]] else []) ++
    (if e.2.digestAlg ≠ inv.digestAlg then [⟨true, .W 0, [e.2.digestAlg, e.1]⟩] else []) ++ g)

/-- pkg/ocfl/objectbase.go:1219-1233: the files of one manifest exist -/
def missingFnd (found : List Str) (ver : Str) (inv : Inv) : Res (List Fnd) :=
  filesFlat inv >>= fun x =>
  .ok (x.2 ++ (x.1.filter (fun f => !decide (f ∈ found))).map (fun f => err 92 [f, ver]))

/-- pkg/ocfl/objectbase.go:1247-1261: the content files of version `v` are in the manifest of `inv`, the inventory of
version `ver`, if that is not older -/
def extraFnd (fs : FS) (root : Inv) (v : Str) (ver : Str) (inv : Inv) : Res (List Fnd) :=
  if versionLessOrEqual inv v ver = false then .ok []
  else
    filesFlat inv >>= fun x =>
    .ok (x.2 ++ ((contentFiles fs root v).filter (fun f => !decide (f ∈ x.1))).map (fun f => err 23 [f, ver]))

/-- pkg/ocfl/objectbase.go:1113-1116: the content directory of the first version; if it has no inventory, a method of
the nil interface is called -/
def firstContentDir (vis : AMap Str Inv) : List Str → Res Str
  | [] => .ok []
  | v :: _ =>
    match mget vis v with
    | none => .error (.panic "nil dereference: inventory")
    | some i => .ok i.contentDirectory

/-- pkg/ocfl/objectbase.go:1028-1265 `checkFilesAndVersions`.  The version strings are sorted already. -/
def checkFilesAndVersions (w : World) (env : Env) (plain : Bool) (fs : FS) (inv : Inv) : Res (List Fnd) :=
  let versions := getVersionStrings inv
  collect (walkFnd plain fs inv) versions >>= fun f1 =>
  versionInventories w env plain fs versions >>= fun vis =>
  contentManifest w fs (allDigests inv vis.1) [] (versions.flatMap (filesUnder fs)) >>= fun fm =>
  checkFiles inv fm >>= fun f2 =>
  firstContentDir vis.1 versions >>= fun contentDir =>
  collect (versionDirFnd fs fm contentDir) vis.1 >>= fun f3 =>
  collect (crossFnd inv) vis.1 >>= fun f4 =>
  collect (fun e => missingFnd (versions.flatMap (filesUnder fs)) e.1 e.2) vis.1 >>= fun f5 =>
  missingFnd (versions.flatMap (filesUnder fs)) [] inv >>= fun f6 =>
  collect (fun v => collect (fun e => extraFnd fs inv v e.1 e.2) vis.1 >>= fun a =>
    extraFnd fs inv v inv.head inv >>= fun b => .ok (a ++ b)) versions >>= fun f7 =>
  .ok (f1 ++ vis.2 ++ f2 ++ f3 ++ (pairs versions).flatMap (specFnd vis.1) ++ lastFnd inv vis.1 versions ++ f4 ++ f5 ++
    f6 ++ f7)

/-- pkg/ocfl/objectbase.go:1267-1321 `Check` -/
def checkObject (w : World) (env : Env) (plain : Bool) (fs : FS) (inv : Inv) : Res (List Fnd) :=
  checkFilesAndVersions w env plain fs inv >>= fun f => .ok (folderFnd fs inv ++ f)

/-- pkg/ocfl/storagerootbase.go:472-487 `CheckObjectByFolder`: all findings about an object, those of loading first;
an object that cannot be loaded is a finding.  An inventory made up for a missing one (pkg/ocfl/inventorybase.go:39-56)
has no manifest: `GetFiles` (654) dereferences it. -/
def checkFolder (w : World) (env : Env) (plain : Bool) (blank : Inv) (fs : FS) (folder : Str) : Res (List Fnd) :=
  match loadByFolder w env plain blank fs folder with
  | .error (.panic m) => .error (.panic m)
  | .error (.error _) => .ok [err 1 [folder]]
  | .ok (inv, f) =>
    if mget (subFS fs folder) rootInvPath = none then .error (.panic "nil dereference: manifest")
    else checkObject w env plain (subFS fs folder) inv >>= fun g => .ok (f ++ g)

end Gocfl
