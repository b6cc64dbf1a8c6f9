import Verif.Go.Path
import Verif.Model.DirectClean

/-!
# Model of the name cleaning functions (`pkg/ocfl/helper.go:62-85, 306-339`)

The input is valid UTF-8 (`strings.ToValidUTF8` changes nothing then).
-/

namespace Gocfl

/-- pkg/ocfl/helper.go:63: control characters and `*?:[]"<>|(){}&'!;`.  In the expression `\;` is an escaped
semicolon: the backslash is not in the class. -/
def isForbidden (c : Char) : Bool :=
  decide (c.toNat < 32) || decide (c.toNat = 127) || "*?:[]\"<>|(){}&'!;".toList.contains c

/-- pkg/ocfl/helper.go:306: the same with `#` and `@` -/
def isForbidden2 (c : Char) : Bool := isForbidden c || c == '#' || c == '@'

/-- `rule_1_5.ReplaceAllString(n, "_")` -/
def replaceForbidden (bad : Char → Bool) (n : Str) : Str := n.map (fun c => if bad c then '_' else c)

/-- regexp class `\s` after the replacement of control characters: the space -/
def isBlank (c : Char) : Bool := c == ' '

/-- regexp class `[\s\-~]` after the replacement of control characters -/
def isLeading (c : Char) : Bool := c == ' ' || c == '-' || c == '~'

/-- `rule_2_4_6.ReplaceAllString(n, "$1")` for `^[\s\-~]*(.*?)\s*$` on a string without control characters -/
def trimName (n : Str) : Str := ((n.dropWhile isLeading).reverse.dropWhile isBlank).reverse

def cleanName (bad : Char → Bool) (n : Str) : Str := trimName (replaceForbidden bad n)

/-- pkg/ocfl/helper.go:62-85 `FixFilename` -/
def fixFilename (fname : Str) : Str :=
  let result := (splitOn '/' fname).map (cleanName isForbidden)
  let j := pathJoin result
  match result with
  | [] :: _ => '/' :: j
  | _ => j

/-- the loop of pkg/ocfl/helper.go:318-331 -/
def cleanPathNames (maxName : Int) : List Str → Res (List Str)
  | [] => .ok []
  | n :: ns =>
    let c := cleanName isForbidden2 n
    if (byteLen c : Int) > maxName then .error (.error "filename too long")
    else cleanPathNames maxName ns >>= fun r => .ok (if c = [] then r else c :: r)

/-- pkg/ocfl/helper.go:312-339 `CleanPath` -/
def cleanPath (fname : Str) (maxName maxPath : Int) : Res Str :=
  cleanPathNames maxName (splitOn '/' fname) >>= fun r =>
  if (byteLen (joinWith '/' r) : Int) > maxPath then .error (.error "pathname too long")
  else .ok (joinWith '/' r)

end Gocfl
