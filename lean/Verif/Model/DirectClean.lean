import Verif.Model.LayoutLemmas

/-!
# Model of `pkg/extension/NNNN-direct-clean-path-layout.go`

Strings are sequences of runes: the model covers valid UTF-8, on which `strings.ToValidUTF8` changes nothing.  Lengths
are counted in bytes.
-/

namespace Gocfl

/-- number of bytes of a rune in UTF-8 -/
def runeBytes (c : Char) : Nat :=
  if c.toNat < 0x80 then 1 else if c.toNat < 0x800 then 2 else if c.toNat < 0x10000 then 3 else 4

/-- Go `len` of a string -/
def byteLen (s : Str) : Nat := (s.map runeBytes).sum

/-- NNNN-direct-clean-path-layout.go:25: the class `directCleanRuleWhitespace` -/
def dcWhite (c : Char) : Bool :=
  let n := c.toNat
  decide (0x9 ≤ n ∧ n ≤ 0xd) || decide (n = 0x20) || decide (n = 0x85) || decide (n = 0xa0) || decide (n = 0x1680) ||
    decide (0x2000 ≤ n ∧ n ≤ 0x200f) || decide (n = 0x2028) || decide (n = 0x2029) || decide (n = 0x202f) ||
    decide (n = 0x205f) || decide (n = 0x3000)

/-- the punctuation characters of `directCleanRuleAll` and `directCleanRule_1_5` -/
def dcPunct : List Char :=
  ['*', '?', ':', '[', ']', '"', '<', '>', '|', '(', ')', '{', '}', '&', '\'', '!', ';', '#', '@']

/-- NNNN-direct-clean-path-layout.go:27: the class `directCleanRule_1_5` -/
def dcDanger (c : Char) : Bool :=
  decide (c.toNat ≤ 0x1f) || decide (c.toNat = 0x7f) || dcPunct.contains c

/-- NNNN-direct-clean-path-layout.go:24: the class `directCleanRuleAll` -/
def dcAll (c : Char) : Bool := dcDanger c || dcWhite c

/-- NNNN-direct-clean-path-layout.go:28: the leading class of `directCleanRule_2_4_6` -/
def dcLead (c : Char) : Bool := decide (c = '-') || decide (c = '~') || dcWhite c

/-- NNNN-direct-clean-path-layout.go:28: the trailing class of `directCleanRule_2_4_6`, which goes to U+20A0 where the
others go to U+200F -/
def dcTrail (c : Char) : Bool := dcWhite c || decide (0x2000 ≤ c.toNat ∧ c.toNat ≤ 0x20a0)

/-- `%U` of a rune without `U+`: upper case, at least four digits -/
def fmtU (n : Nat) : Str :=
  let h := (hexNat n).map Char.toUpper
  List.replicate (4 - h.length) '0' ++ h

/-- NNNN-direct-clean-path-layout.go:101-103 `encodeUTFCode` of one rune -/
def encodeUTF (c : Char) : Str := '=' :: 'u' :: fmtU c.toNat

/-- `[a-zA-Z0-9]` -/
def alnum (c : Char) : Bool :=
  decide (97 ≤ c.toNat ∧ c.toNat ≤ 122) || decide (65 ≤ c.toNat ∧ c.toNat ≤ 90) || decide (48 ≤ c.toNat ∧ c.toNat ≤ 57)

/-- begins with `u[a-zA-Z0-9]{4}` -/
def startsU4 : Str → Bool
  | u :: a :: b :: c :: d :: _ => decide (u = 'u') && alnum a && alnum b && alnum c && alnum d
  | _ => false

/-- NNNN-direct-clean-path-layout.go:256 `directCleanRuleEqual.ReplaceAllString(n, "=u003D$1")`: matches contain only
one equals sign, so every one followed by `uXXXX` is replaced -/
def eqEncode : Str → Str
  | [] => []
  | c :: r => if c = '=' ∧ startsU4 r = true then "=u003D".toList ++ eqEncode r else c :: eqEncode r

/-- `^\.+$` -/
def allPeriods (s : Str) : Bool := !s.isEmpty && s.all (fun c => decide (c = '.'))

/-- NNNN-direct-clean-path-layout.go:255-260: one segment with UTF encoding -/
def dcSegUTF (n : Str) : Str :=
  let m := (eqEncode n).flatMap (fun c => if dcAll c then encodeUTF c else [c])
  match m with
  | [] => []
  | c :: r => if c = '~' ∨ allPeriods (c :: r) = true then encodeUTF c ++ r else c :: r

/-- NNNN-direct-clean-path-layout.go:28, 264: `^[lead]*(.*?)[trail]*$` → `$1`; the full stop does not match a line feed,
in which case nothing is replaced -/
def dcTrim (n : Str) : Str :=
  let m := ((n.dropWhile dcLead).reverse.dropWhile dcTrail).reverse
  if '\n' ∈ m then n else m

/-- NNNN-direct-clean-path-layout.go:262-267: one segment without UTF encoding -/
def dcSegPlain (repl white n : Str) : Str :=
  let n1 := n.flatMap (fun c => if dcWhite c then white else [c])
  let n2 := n1.flatMap (fun c => if dcDanger c then repl else [c])
  let n3 := dcTrim n2
  if allPeriods n3 = true then repl ++ n3.drop 1 else n3

/-- NNNN-direct-clean-path-layout.go:105-121 -/
structure DCCfg where
  maxPathname : Int
  maxSegment : Int
  repl : Str
  white : Str
  utf : Bool
  folder : Str
  tuples : Int
  tupleSize : Int
  deriving DecidableEq, Repr

/-- NNNN-direct-clean-path-layout.go:74-99: defaults.  Simplification: the hash exists. -/
def newDC (c : DCCfg) : DCCfg :=
  { c with
    maxPathname := if c.maxPathname = 0 then 32000 else c.maxPathname
    maxSegment := if c.maxSegment = 0 then 127 else c.maxSegment
    folder := if c.folder = [] then "fallback".toList else c.folder }

/-- NNNN-direct-clean-path-layout.go:255-268: one segment -/
def dcSeg (c : DCCfg) (n : Str) : Str := if c.utf then dcSegUTF n else dcSegPlain c.repl c.white n

/-- NNNN-direct-clean-path-layout.go:250-281: the cleaned segments; `none` if a segment is too long -/
def dcSegs (c : DCCfg) : List Str → Option (List Str)
  | [] => some []
  | n :: ns =>
    if n = [] then dcSegs c ns
    else
      if (byteLen (dcSeg c n) : Int) > c.maxSegment then none
      else (dcSegs c ns).map (fun r => if dcSeg c n = [] then r else dcSeg c n :: r)

/-- NNNN-direct-clean-path-layout.go:219-229: the digest cut into pieces of the segment length (the pieces are joined
as they are: they are not empty and contain only hexadecimal digits) -/
def digestPieces (max : Int) (digest : Str) : Res Str :=
  let parts := (digest.length : Int).tdiv max + (if (digest.length : Int).tmod max > 0 then 1 else 0)
  (List.range parts.toNat).mapM
    (fun (i : Nat) => goSlice digest ((i : Int) * max) (min (((i : Int) + 1) * max) (digest.length : Int))) >>= fun ps =>
  .ok (joinWith '/' ps)

/-- NNNN-direct-clean-path-layout.go:232-235: the sub folders, `digest[lo:lo+size]` for `lo` from the number of
tuples - 1 down to 0, every one in front of the result -/
def dcTuples (c : DCCfg) (digest : Str) : Nat → Str → Res Str
  | 0, r => .ok r
  | lo + 1, r => goSlice digest (lo : Int) ((lo : Int) + c.tupleSize) >>= fun t => dcTuples c digest lo (pathJoin [t, r])

/-- NNNN-direct-clean-path-layout.go:203-241 `fallback`; `hash` is the hex digest.  Simplification: division by a
segment length of 0 cannot happen after the constructor. -/
def dcFallback (hash : Str → Str) (c : DCCfg) (fname : Str) : Res Str :=
  digestPieces c.maxSegment (hash fname) >>= fun ps =>
  dcTuples c (hash fname) c.tuples.toNat ps >>= fun r =>
  let result := trimLeft (pathClean (pathJoin [c.folder, r])) "/".toList
  if (byteLen result : Int) > c.maxPathname then .error (.error "result too long") else .ok result

/-- NNNN-direct-clean-path-layout.go:243-288 `build` -/
def dcBuild (hash : Str → Str) (c : DCCfg) (fname : Str) : Res Str :=
  match dcSegs c (splitOn '/' fname) with
  | none => dcFallback hash c fname
  | some segs =>
    if (byteLen (joinWith '/' segs) : Int) > c.maxPathname then dcFallback hash c (joinWith '/' segs)
    else .ok (joinWith '/' segs)

end Gocfl
