import Verif.Go.Path
import Verif.Model.Settings

/-!
# Paths on the command line

`Fullpath` (pkg/ocfl/helper.go:87-131), which every command applies to its path arguments before it asks the filesystem
factory for them (gocfl/cmd/validate.go:44, stat.go:60, init.go:58, create.go:70-75, add.go:114-119, update.go:86-91,
extract.go:98-103, extractmeta.go:63, display.go:73).
-/

namespace Gocfl

/-- `Fullpath` (pkg/ocfl/helper.go:87-131) on Unix.  `cwd` is what `os.Getwd` answers (its failure is left out).  The first
test of the code, `path == ""`, is never true, since `filepath.Clean` gives `.` for the empty path; then `Join` with `.`
gives the current folder too. -/
def fullpath (cwd path : Str) : Str :=
  match pathClean path with
  | '/' :: r => '/' :: r
  | q => pathJoin [cwd, q]

/-- What a command works on for a path argument: gocfl/cmd/validate.go:44,98-104 and the like -/
def reach (isS3 : Str → Bool) (c : Command) (k : Conf) (cwd arg : Str) : Opened :=
  openAs isS3 (factoryArgs c k) (fullpath cwd arg)

end Gocfl
