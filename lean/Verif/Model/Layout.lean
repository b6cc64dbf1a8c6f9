import Verif.Go.Path

/-!
# Model of the storage layouts (`pkg/extension/0002…0007`, `NNNN-pairtree-storage-layout.go`)

Go strings are byte sequences; here a byte is a `Char` below 256 (`IsBytes`), except for the pairtree layout, which
works on runes.  Integers of the configuration are unbounded.
-/

namespace Gocfl

/-- every character is a byte -/
def IsBytes (s : Str) : Prop := ∀ c ∈ s, c.toNat < 256

/-- Go slice expression `s[a:b]` -/
def goSlice {α : Type} (s : List α) (a b : Int) : Res (List α) :=
  if 0 ≤ a ∧ a ≤ b ∧ b ≤ s.length then .ok ((s.drop a.toNat).take (b - a).toNat)
  else .error (.panic "slice bounds out of range")

/-- `fmt.Sprintf("%x", n)` -/
def hexNat (n : Nat) : Str := Nat.toDigits 16 n

/-- Configuration of 0003 and 0004 (`shortObjectRoot` only of 0004) -/
structure TupleCfg where
  tupleSize : Int
  numberOfTuples : Int
  shortObjectRoot : Bool
  deriving DecidableEq, Repr

/-- pkg/extension/0003-hash-and-id-n-tuple-storage-layout.go:37-47 and
0004-hashed-n-tuple-storage-layout.go:37-47: what the constructors make of the configuration.  Simplification: the
hash algorithm exists and the name fits. -/
def newTupleCfg (c : TupleCfg) : TupleCfg :=
  let n := if c.numberOfTuples > 32 then 32 else c.numberOfTuples
  let s := if c.tupleSize > 32 then 32 else c.tupleSize
  if s = 0 ∨ n = 0 then { c with tupleSize := 0, numberOfTuples := 0 }
  else { c with tupleSize := s, numberOfTuples := n }

/-- the loops at 0003:150-153 and 0004:127-130: `digest[i*size:(i+1)*size]` -/
def tuples (digest : Str) (c : TupleCfg) : Res (List Str) :=
  (List.range c.numberOfTuples.toNat).mapM
    (fun (i : Nat) => goSlice digest ((i : Int) * c.tupleSize) (((i : Int) + 1) * c.tupleSize))

/-- 0003:128: the bytes kept by `escape` -/
def idChar (c : Char) : Bool :=
  decide (97 ≤ c.toNat ∧ c.toNat ≤ 122) || decide (65 ≤ c.toNat ∧ c.toNat ≤ 90) ||
    decide (48 ≤ c.toNat ∧ c.toNat ≤ 57) || decide (c = '-') || decide (c = '_')

def escape1 (c : Char) : Str := if idChar c then [c] else '%' :: hexNat c.toNat

/-- pkg/extension/0003-hash-and-id-n-tuple-storage-layout.go:125-136 `escape` -/
def escape (id : Str) : Str := id.flatMap escape1

/-- pkg/extension/0003-hash-and-id-n-tuple-storage-layout.go:155-158: long names are cut and the digest added -/
def encapsulation (id digest : Str) : Str :=
  if 100 < (escape id).length then (escape id).take 100 ++ '-' :: digest else escape id

/-- pkg/extension/0003-hash-and-id-n-tuple-storage-layout.go:138-161 `BuildStorageRootPath`; `hash` is the hex
digest -/
def layout0003 (hash : Str → Str) (c : TupleCfg) (id : Str) : Res Str :=
  if ((hash id).length : Int) < c.tupleSize * c.numberOfTuples then .error (.error "digest too short")
  else tuples (hash id) c >>= fun ts => .ok (joinWith '/' (ts ++ [encapsulation id (hash id)]))

/-- pkg/extension/0004-hashed-n-tuple-storage-layout.go:116-137 `BuildStorageRootPath` -/
def layout0004 (hash : Str → Str) (c : TupleCfg) (id : Str) : Res Str :=
  if ((hash id).length : Int) < c.tupleSize * c.numberOfTuples then .error (.error "digest too short")
  else
    tuples (hash id) c >>= fun ts =>
    (if c.shortObjectRoot then goSlice (hash id) (c.numberOfTuples * c.tupleSize) (hash id).length
     else .ok (hash id)) >>= fun last => .ok (joinWith '/' (ts ++ [last]))

/-- Go `strings.LastIndex` -/
def lastIndex (s sep : Str) : Option Nat := (List.range (s.length + 1)).reverse.find? (fun i => sep.isPrefixOf (s.drop i))

/-- pkg/extension/0006-flat-omit-prefix-storage-layout.go:117-123 `BuildStorageRootPath` (the empty delimiter is found
at the end) -/
def layout0006 (delimiter id : Str) : Str :=
  match lastIndex id delimiter with
  | none => id
  | some i => id.drop (i + delimiter.length)

/-- pkg/extension/0002-flat-direct-storage-layout.go and pathdirect.go:112-117: the id itself -/
def layout0002 (id : Str) : Str := id

/-- a byte continuing a multi-byte sequence -/
def isCont (c : Char) : Bool := decide (128 ≤ c.toNat ∧ c.toNat < 192)

/-- number of bytes of the UTF-8 sequence at the beginning of a byte string, if it is valid (Go
`utf8.DecodeRune`: no overlong forms, no surrogates, at most U+10FFFF) -/
def runeLen : Str → Option Nat
  | [] => none
  | a :: r =>
    if a.toNat < 0x80 then some 1
    else
      match r with
      | [] => none
      | b :: r2 =>
        if 0xC2 ≤ a.toNat ∧ a.toNat ≤ 0xDF then if isCont b then some 2 else none
        else
          match r2 with
          | [] => none
          | c :: r3 =>
            if 0xE0 ≤ a.toNat ∧ a.toNat ≤ 0xEF then
              if isCont b && isCont c && !(decide (a.toNat = 0xE0) && decide (b.toNat < 0xA0)) &&
                !(decide (a.toNat = 0xED) && decide (0xA0 ≤ b.toNat)) then some 3 else none
            else
              match r3 with
              | [] => none
              | d :: _ =>
                if 0xF0 ≤ a.toNat ∧ a.toNat ≤ 0xF4 then
                  if isCont b && isCont c && isCont d && !(decide (a.toNat = 0xF0) && decide (b.toNat < 0x90)) &&
                    !(decide (a.toNat = 0xF4) && decide (0x90 ≤ b.toNat)) then some 4 else none
                else none

/-- U+FFFD -/
def replacementRune : Str := [Char.ofNat 0xEF, Char.ofNat 0xBF, Char.ofNat 0xBD]

/-- `[]rune(s)`, every rune as its UTF-8 bytes; `fuel` bounds the number of steps (the length is enough) -/
def runesFuel : Nat → Str → List Str
  | 0, _ => []
  | _ + 1, [] => []
  | n + 1, a :: r =>
    match runeLen (a :: r) with
    | none => replacementRune :: runesFuel n r
    | some k => (a :: r).take k :: runesFuel n ((a :: r).drop k)

def runes (s : Str) : List Str := runesFuel s.length s

/-- pkg/extension/0007-n-tuple-omit-prefix-storage-layout.go:19-30 `reverse` -/
def reverseRunes (s : Str) : Str := (runes s).reverse.flatten

/-- Configuration of 0007 -/
structure OmitCfg where
  delimiter : Str
  tupleSize : Int
  numberOfTuples : Int
  zeroPadding : Str
  reverseObjectRoot : Bool
  deriving DecidableEq, Repr

/-- 0007:141-146: the id without prefix -/
def omitPrefix (delimiter id : Str) : Str :=
  if delimiter = [] then id
  else
    match lastIndex id delimiter with
    | none => id
    | some i => id.drop (i + delimiter.length)

/-- 0007:150-170: zero-padding -/
def zeroPad (c : OmitCfg) (id : Str) : Str :=
  let zeros := List.replicate (c.tupleSize * c.numberOfTuples - id.length).toNat '0'
  (if c.zeroPadding = "right".toList then id else []) ++ zeros ++ (if c.zeroPadding = "left".toList then id else [])

/-- pkg/extension/0007-n-tuple-omit-prefix-storage-layout.go:137-190 `BuildStorageRootPath` -/
def layout0007 (c : OmitCfg) (id : Str) : Res Str :=
  let rest := omitPrefix c.delimiter id
  let padded := zeroPad c rest
  let base := if c.reverseObjectRoot then reverseRunes padded else padded
  if c.tupleSize = 0 then .error (.panic "integer divide by zero")
  else
    (List.range ((c.tupleSize * c.numberOfTuples).tdiv c.tupleSize).toNat).mapM
      (fun (i : Nat) => goSlice base ((i : Int) * c.tupleSize) (((i : Int) + 1) * c.tupleSize)) >>= fun ts =>
    .ok (joinWith '/' (ts ++ [rest]))

/-- pkg/extension/NNNN-pairtree-storage-layout.go:23: the third last entry should be the comma -/
def rareChars : List Char := ['"', '*', '+', 'c', '<', '=', '>', '?', '^', '|']

/-- pkg/extension/NNNN-pairtree-storage-layout.go:25-29 and 175-187 -/
def pairConvert (c : Char) : Char :=
  if c = '/' then '=' else if c = ':' then '+' else if c = '.' then ',' else c

/-- pkg/extension/NNNN-pairtree-storage-layout.go:157-171: visible and not rare -/
def pairKept (c : Char) : Bool := decide (0x21 ≤ c.toNat ∧ c.toNat ≤ 0x7e) && !(rareChars.contains c)

def pairEncode1 (c : Char) : Str := if pairKept c then [c] else '^' :: hexNat c.toNat

/-- pkg/extension/NNNN-pairtree-storage-layout.go:155-190 `idEncode`, on runes -/
def pairEncode (id : Str) : Str := (id.flatMap pairEncode1).map pairConvert

/-- consecutive pieces of length `n` (the last one may be shorter); `fuel`: the length of the list is enough -/
def chunksFuel {α : Type} (n : Nat) : Nat → List α → List (List α)
  | 0, _ => []
  | _ + 1, [] => []
  | f + 1, a :: l => (a :: l).take n :: chunksFuel n f ((a :: l).drop n)

def chunks {α : Type} (n : Nat) (l : List α) : List (List α) := chunksFuel n l.length l

/-- pkg/extension/NNNN-pairtree-storage-layout.go:140-153 `BuildStorageRootPath` (the encoded id is ASCII).  For length
0 the number of parts is the conversion of an infinite float to an integer, which Go leaves undefined. -/
def layoutPairtree (shortyLength : Int) (id : Str) : Res Str :=
  if shortyLength = 0 then .error (.panic "conversion of infinity")
  else if shortyLength < 0 then .ok []
  else .ok (joinWith '/' (chunks shortyLength.toNat (pairEncode id)))

end Gocfl
