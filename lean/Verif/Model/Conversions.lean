import Verif.Model.Migration
import Verif.Model.MetaFile

/-!
# The conversion programs of the configuration

pkg/subsystem/migration and pkg/subsystem/thumbnail: how the functions of the configuration file become programs, which one
is taken for a file, and which words it is called with.
-/

namespace Gocfl

/-- config/config.go:85-109 `MigrationFunction`, `ThumbnailFunction` (each has only some of the fields).  Left out: title and
timeout, which are copied. -/
structure FnConf where
  id : Str
  command : Str
  strategy : Str
  regexp : Str
  replacement : Str
  pronoms : List Str
  mime : List Str
  deriving DecidableEq, Repr

/-- the libraries: `shlex.Split`, whether `regexp.Compile` succeeds, `MatchString` -/
structure ConvWorld where
  split : Str → Option (List Str)
  compiles : Str → Bool
  isMatch : Str → Str → Bool

/-- pkg/subsystem/migration/migrate.go:29-39, pkg/subsystem/thumbnail/thumbnail.go:22-31 `Function` -/
structure ConvFn where
  id : Str
  command : Str
  args : List Str
  strategy : Option Strategy
  regexp : Str
  replacement : Str
  pronoms : List Str
  mime : List Str
  deriving DecidableEq, Repr

/-- pkg/subsystem/migration/migrate.go:23-27 `Strategies` -/
def strategyOf (s : Str) : Option Strategy :=
  if s = "replace".toList then some .replace
  else if s = "add".toList then some .add
  else if s = "folder".toList then some .folder
  else none

/-- pkg/subsystem/migration/helper.go:37-69, one round of the loop -/
def migFnOf (w : ConvWorld) (c : FnConf) : Res ConvFn :=
  match w.split c.command with
  | none => .error (.error "cannot parse Migration.Function")
  | some [] => .error (.error "Migration.Function is empty")
  | some (cmd :: args) =>
    if w.compiles c.regexp then
      match strategyOf c.strategy with
      | none => .error (.error "unknown strategy")
      | some st => .ok ⟨c.id, cmd, args, some st, c.regexp, c.replacement, c.pronoms.map trimSpace, []⟩
    else .error (.error "cannot parse Migration.Function")

/-- pkg/subsystem/thumbnail/helper.go:34-68, one round of the loop -/
def thumbFnOf (w : ConvWorld) (c : FnConf) : Res ConvFn :=
  match w.split c.command with
  | none => .error (.error "cannot parse Thumbnail.Function")
  | some [] => .error (.error "Thumbnail.Function is empty")
  | some (cmd :: args) =>
    if c.mime.all w.compiles then .ok ⟨c.id, cmd, args, none, [], [], c.pronoms.map trimSpace, c.mime⟩
    else .error (.error "cannot parse Migration.Function")

/-- the loop over the configured functions, in the order Go ranges over them; `one`: what is done with each -/
def collectFns (one : FnConf → Res ConvFn) : AMap Str FnConf → Res (AMap Str ConvFn)
  | [] => .ok []
  | (n, c) :: rest => one c >>= fun f => collectFns one rest >>= fun fs => .ok ((n, f) :: fs)

/-- pkg/subsystem/migration/helper.go:32-71 `GetMigrations` -/
def getMigrations (w : ConvWorld) (conf : AMap Str FnConf) : Res (AMap Str ConvFn) := collectFns (migFnOf w) conf

/-- pkg/subsystem/thumbnail/helper.go:28-70 `GetThumbnails` -/
def getThumbnails (w : ConvWorld) (conf : AMap Str FnConf) : Res (AMap Str ConvFn) := collectFns (thumbFnOf w) conf

/-- pkg/subsystem/migration/migrate.go:93-102, pkg/subsystem/thumbnail/thumbnail.go:69-78 `GetFunctionByPronom`, the
functions in the order Go ranges over them -/
def byPronom (fns : AMap Str ConvFn) (p : Str) : Option ConvFn :=
  (fns.find? (fun e => e.2.pronoms.any (fun q => decide (q = p)))).map (·.2)

/-- pkg/subsystem/thumbnail/thumbnail.go:80-89 `GetFunctionByMimetype` -/
def byMime (w : ConvWorld) (fns : AMap Str ConvFn) (m : Str) : Option ConvFn :=
  (fns.find? (fun e => e.2.mime.any (fun re => w.isMatch re m))).map (·.2)

/-- pkg/extension/NNNN-thumbnail.go:322-328: by format, else by media type; the two loops range separately -/
def thumbFor (w : ConvWorld) (fns fns' : AMap Str ConvFn) (p m : Str) : Option ConvFn :=
  match byPronom fns p with
  | some f => some f
  | none => byMime w fns' m

/-- `strings.ReplaceAll` for an `old` that is not empty; the first argument bounds the number of steps -/
def replaceFuel : Nat → Str → Str → Str → Str
  | 0, _, _, s => s
  | _ + 1, _, _, [] => []
  | n + 1, old, new, c :: s =>
    if old.isPrefixOf (c :: s) then new ++ replaceFuel n old new ((c :: s).drop old.length)
    else c :: replaceFuel n old new s

def replaceAll (old new s : Str) : Str := replaceFuel (s.length + 1) old new s

/-- pkg/subsystem/migration/migrate.go:63-70: a word of the command line -/
def migArg (src dst a : Str) : Str :=
  replaceAll "{destination}".toList dst (replaceAll "{source}".toList src a)

/-- pkg/subsystem/thumbnail/thumbnail.go:37-44 -/
def thumbArg (src dst bg width height a : Str) : Str :=
  replaceAll "{height}".toList height (replaceAll "{width}".toList width (replaceAll "{background}".toList bg
    (replaceAll "{destination}".toList dst (replaceAll "{source}".toList src a))))

/-- `prefixAndSuffix` of package os: the pattern at its last `*`; all of it and nothing if there is none -/
def starSplit (p : Str) : Str × Str :=
  if '*' ∈ p then
    ((p.reverse.dropWhile (· ≠ '*')).tail.reverse, (p.reverse.takeWhile (· ≠ '*')).reverse)
  else (p, [])

/-- `os.CreateTemp(dir, pattern)` with the random number `rnd` -/
def createTemp (dir rnd pattern : Str) : Str :=
  let name := (starSplit pattern).1 ++ rnd ++ (starSplit pattern).2
  if dir.getLast? = some '/' then dir ++ name else dir ++ '/' :: name

/-- pkg/subsystem/migration/helper.go:74: the file the content is copied to -/
def migTemp (dir rnd ext : Str) : Str := createTemp dir rnd ("gocfl_*".toList ++ ext)

/-- pkg/subsystem/migration/helper.go:86: the file the program is to write; `target`: `targetNames[0]` -/
def migTarget (tmp target : Str) : Str := pathJoin [pathDir tmp, "target.".toList ++ pathBase tmp ++ fileExt target]

/-- the words the program is called with for the content file `content` (pkg/extension/NNNN-migration.go:286, 300) -/
def migCall (f : ConvFn) (dir rnd content target : Str) : List Str :=
  let src := migTemp dir rnd (fileExt content)
  f.args.map (migArg src (migTarget src target))

end Gocfl
