import Verif.Go.Path

/-!
# Go `net/url`: escaping of paths

Strings are byte strings here: every character stands for a byte.
-/

namespace Gocfl

/-- the letters and digits of ASCII -/
def isAlnum (c : Char) : Bool :=
  decide (('a'.toNat ≤ c.toNat ∧ c.toNat ≤ 'z'.toNat) ∨ ('A'.toNat ≤ c.toNat ∧ c.toNat ≤ 'Z'.toNat) ∨
    ('0'.toNat ≤ c.toNat ∧ c.toNat ≤ '9'.toNat))

/-- `shouldEscape(c, encodePath)` -/
def escInPath (c : Char) : Bool := !(isAlnum c || decide (c ∈ "-_.~$&+,/:;=@".toList))

/-- `shouldEscape(c, encodePathSegment)` -/
def escInSegment (c : Char) : Bool := !(isAlnum c || decide (c ∈ "-_.~$&+:=@".toList))

/-- upper case hexadecimal digit -/
def upperHex (n : Nat) : Char := if n < 10 then Char.ofNat (48 + n) else Char.ofNat (55 + n)

/-- `unhex`, with `ishex` -/
def unhex (c : Char) : Option Nat :=
  if 48 ≤ c.toNat ∧ c.toNat ≤ 57 then some (c.toNat - 48)
  else if 97 ≤ c.toNat ∧ c.toNat ≤ 102 then some (c.toNat - 87)
  else if 65 ≤ c.toNat ∧ c.toNat ≤ 70 then some (c.toNat - 55)
  else none

/-- `escape` -/
def escapeWith (esc : Char → Bool) : Str → Str
  | [] => []
  | c :: s =>
    if esc c then '%' :: upperHex (c.toNat / 16) :: upperHex (c.toNat % 16) :: escapeWith esc s
    else c :: escapeWith esc s

/-- `url.PathEscape` -/
def pathEscape (s : Str) : Str := escapeWith escInSegment s

/-- `unescape` in both modes, `url.PathUnescape`; `none`: an error -/
def pathUnescape : Str → Option Str
  | [] => some []
  | '%' :: a :: b :: s =>
    match unhex a, unhex b with
    | some x, some y => (pathUnescape s).map (fun r => Char.ofNat (16 * x + y) :: r)
    | _, _ => none
  | c :: s => if c = '%' then none else (pathUnescape s).map (fun r => c :: r)

/-- `URL.setPath`: `Path` and `RawPath` -/
def setPath (raw : Str) : Option (Str × Str) :=
  (pathUnescape raw).map (fun p => (p, if escapeWith escInPath p = raw then [] else raw))

end Gocfl
