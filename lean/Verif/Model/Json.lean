import Verif.Model.Load

/-!
# Model of inventory files: what `encoding/json` writes and reads (Go 1.22)

`pkg/ocfl/objectbase.go:349` writes an inventory with `json.MarshalIndent(…, "", "   ")`, 237-280 reads it with
`json.Unmarshal`; the types are in `pkg/ocfl/inventorybase.go:20-38` and `pkg/ocfl/inventorytypes.go`.  The package
`encoding/json` is part of the standard library, not of the repository; its behaviour is written down here as far as
inventories need it.  Simplifications: there is no limit for the depth of nesting; every number fits its type; an empty
list is written as `[]` also where the code has a nil slice (`null`; both are read as the empty list).
-/

namespace Gocfl

/-! ## UTF-8 -/

/-- the byte of an ASCII character -/
def ch (c : Char) : UInt8 := UInt8.ofNat c.toNat

def by8 (n : Nat) : UInt8 := UInt8.ofNat n

/-- `utf8.AppendRune` -/
def utf8Char (c : Char) : Bytes :=
  if c.toNat < 0x80 then [by8 c.toNat]
  else if c.toNat < 0x800 then [by8 (0xC0 + c.toNat / 64), by8 (0x80 + c.toNat % 64)]
  else if c.toNat < 0x10000 then
    [by8 (0xE0 + c.toNat / 4096), by8 (0x80 + c.toNat / 64 % 64), by8 (0x80 + c.toNat % 64)]
  else
    [by8 (0xF0 + c.toNat / 262144), by8 (0x80 + c.toNat / 4096 % 64), by8 (0x80 + c.toNat / 64 % 64), by8 (0x80 + c.toNat % 64)]

/-- the bytes of a string -/
def utf8 (s : Str) : Bytes := s.flatMap utf8Char

/-- a byte that continues a character -/
def isCont8 (b : UInt8) : Bool := decide (0x80 ≤ b.toNat) && decide (b.toNat < 0xC0)

/-- `utf8.RuneError` -/
def badRune : Char := Char.ofNat 0xFFFD

/-- `utf8.DecodeRune`: the first character and the number of its bytes; a byte that begins no character is `U+FFFD` -/
def decodeRune : Bytes → Char × Nat
  | [] => (badRune, 0)
  | a :: r =>
    if a.toNat < 0x80 then (Char.ofNat a.toNat, 1)
    else if a.toNat < 0xC0 then (badRune, 1)
    else if a.toNat < 0xE0 then
      match r with
      | b :: _ =>
        if isCont8 b && decide (0x80 ≤ (a.toNat - 0xC0) * 64 + (b.toNat - 0x80)) then
          (Char.ofNat ((a.toNat - 0xC0) * 64 + (b.toNat - 0x80)), 2)
        else (badRune, 1)
      | _ => (badRune, 1)
    else if a.toNat < 0xF0 then
      match r with
      | b :: c :: _ =>
        if isCont8 b && isCont8 c && decide (Nat.isValidChar ((a.toNat - 0xE0) * 4096 + (b.toNat - 0x80) * 64 + (c.toNat - 0x80)))
            && decide (0x800 ≤ (a.toNat - 0xE0) * 4096 + (b.toNat - 0x80) * 64 + (c.toNat - 0x80)) then
          (Char.ofNat ((a.toNat - 0xE0) * 4096 + (b.toNat - 0x80) * 64 + (c.toNat - 0x80)), 3)
        else (badRune, 1)
      | _ => (badRune, 1)
    else
      match r with
      | b :: c :: d :: _ =>
        if decide (a.toNat < 0xF8) && isCont8 b && isCont8 c && isCont8 d &&
            decide (Nat.isValidChar ((a.toNat - 0xF0) * 262144 + (b.toNat - 0x80) * 4096 + (c.toNat - 0x80) * 64 + (d.toNat - 0x80)))
            && decide (0x10000 ≤ (a.toNat - 0xF0) * 262144 + (b.toNat - 0x80) * 4096 + (c.toNat - 0x80) * 64 + (d.toNat - 0x80)) then
          (Char.ofNat ((a.toNat - 0xF0) * 262144 + (b.toNat - 0x80) * 4096 + (c.toNat - 0x80) * 64 + (d.toNat - 0x80)), 4)
        else (badRune, 1)
      | _ => (badRune, 1)

/-- the characters of a Go string (`for _, r := range s`); the first argument bounds the number of steps -/
def goRunesN : Nat → Bytes → Str
  | 0, _ => []
  | _, [] => []
  | n + 1, a :: r => (decodeRune (a :: r)).1 :: goRunesN n (r.drop ((decodeRune (a :: r)).2 - 1))

def goRunes (b : Bytes) : Str := goRunesN b.length b

/-! ## Writing -/

/-- the digits `0`-`9`, `a`-`f` -/
def hexByte (n : Nat) : UInt8 := if n < 10 then by8 (0x30 + n) else by8 (0x61 + (n - 10))

/-- `\u00xx` -/
def escU (n : Nat) : Bytes :=
  [ch '\\', ch 'u', hexByte (n / 4096 % 16), hexByte (n / 256 % 16), hexByte (n / 16 % 16), hexByte (n % 16)]

/-- `encoding/json.appendString` (with `escapeHTML`), one character -/
def escChar (c : Char) : Bytes :=
  if c = '"' ∨ c = '\\' then [ch '\\', ch c]
  else if c.toNat = 8 then [ch '\\', ch 'b']
  else if c.toNat = 12 then [ch '\\', ch 'f']
  else if c.toNat = 10 then [ch '\\', ch 'n']
  else if c.toNat = 13 then [ch '\\', ch 'r']
  else if c.toNat = 9 then [ch '\\', ch 't']
  else if c.toNat < 0x20 ∨ c = '<' ∨ c = '>' ∨ c = '&' then escU c.toNat
  else if c.toNat = 0x2028 ∨ c.toNat = 0x2029 then escU c.toNat
  else utf8Char c

/-- what is written between the quotation marks -/
def escStr (s : Str) : Bytes := s.flatMap escChar

/-- `encoding/json.appendString` of a Go string, which may contain bytes that are no UTF-8: those are written `�` -/
def escGo (b : Bytes) : Bytes := escStr (goRunes b)

/-- a new line at depth `d` -/
def nl (d : Nat) : Bytes := ch '\n' :: List.replicate (3 * d) (ch ' ')

/-- a string with its quotation marks -/
def qStr (s : Str) : Bytes := ch '"' :: (escStr s ++ [ch '"'])

/-- the texts of the elements or members, each on its line -/
def lines (d : Nat) : List Bytes → Bytes
  | [] => []
  | [x] => nl d ++ x
  | x :: y :: l => nl d ++ (x ++ ch ',' :: lines d (y :: l))

/-- an array whose elements have the given texts, at depth `d` -/
def arrText (d : Nat) (l : List Bytes) : Bytes :=
  if l = [] then [ch '[', ch ']'] else ch '[' :: (lines (d + 1) l ++ (nl d ++ [ch ']']))

/-- one member of an object -/
def member (k : Str) (v : Bytes) : Bytes := qStr k ++ ch ':' :: ch ' ' :: v

/-- an object with the given members, at depth `d` -/
def objText (d : Nat) (l : List (Str × Bytes)) : Bytes :=
  if l = [] then [ch '{', ch '}']
  else ch '{' :: (lines (d + 1) (l.map (fun e => member e.1 e.2)) ++ (nl d ++ [ch '}']))

/-- a map in the order in which `encoding/json` writes it: sorted by key -/
def byKey {V : Type} (m : AMap Str V) : AMap Str V := sortBy (fun a b => strLe a.1 b.1) m

/-- `map[string][]string` -/
def dmapText (d : Nat) (m : DMap) : Bytes :=
  objText d ((byKey m).map (fun e => (e.1, arrText (d + 1) (e.2.map qStr))))

/-- What writing and reading a time stamp does: `time` — format and parse (pkg/ocfl/inventorytypes.go:76-93), `ok` — the text
can be parsed. -/
structure Clock where
  time : Str → Str
  ok : Str → Bool

/-- pkg/ocfl/inventorytypes.go:95-102, 137-142: a version -/
def versionText (c : Clock) (d : Nat) (v : Version) : Bytes :=
  objText d
    [("created".toList, qStr (c.time v.created)), ("message".toList, qStr v.message), ("state".toList, dmapText (d + 1) v.state),
     ("user".toList, objText (d + 1) [("address".toList, qStr v.userAddress), ("name".toList, qStr v.userName)])]

/-- pkg/ocfl/objectbase.go:349, pkg/ocfl/inventorybase.go:29-36: the file `inventory.json` -/
def invText (c : Clock) (inv : Inv) : Bytes :=
  objText 0
    ([("id".toList, qStr inv.id), ("type".toList, qStr inv.spec), ("digestAlgorithm".toList, qStr inv.digestAlg),
      ("head".toList, qStr inv.head)] ++
     (if inv.contentDirectory = [] then [] else [("contentDirectory".toList, qStr inv.contentDirectory)]) ++
     [("manifest".toList, dmapText 1 inv.manifest),
      ("versions".toList, objText 1 ((byKey inv.versions).map (fun e => (e.1, versionText c 2 e.2))))] ++
     (if inv.fixity = [] then [] else
      [("fixity".toList, objText 1 ((byKey inv.fixity).map (fun e => (e.1, dmapText 2 e.2))))]))

/-! ## Reading: syntax -/

/-- A JSON value.  Strings and numbers are the bytes in the file, strings without their quotation marks. -/
inductive JV where
  | null
  | bool (b : Bool)
  | num (raw : Bytes)
  | str (raw : Bytes)
  | arr (l : List JV)
  | obj (l : List (Bytes × JV))

def isWs (b : UInt8) : Bool := b == 0x20 || b == 0x09 || b == 0x0A || b == 0x0D

def skipWs (b : Bytes) : Bytes := b.dropWhile isWs

def isHexByte (b : UInt8) : Bool :=
  (decide (0x30 ≤ b.toNat) && decide (b.toNat ≤ 0x39)) || (decide (0x61 ≤ b.toNat) && decide (b.toNat ≤ 0x66)) ||
    (decide (0x41 ≤ b.toNat) && decide (b.toNat ≤ 0x46))

/-- what may follow a backslash, besides `u` -/
def isEsc (b : UInt8) : Bool :=
  b == ch 'b' || b == ch 'f' || b == ch 'n' || b == ch 'r' || b == ch 't' || b == ch '\\' || b == ch '/' || b == ch '"'

/-- the rest of a string after its quotation mark, and what follows it (`encoding/json/scanner.go` `stateInString` and
following) -/
def scanStr : Bytes → Option (Bytes × Bytes)
  | [] => none
  | b :: r =>
    if b = ch '"' then some ([], r)
    else if b = ch '\\' then
      match r with
      | [] => none
      | e :: r1 =>
        if isEsc e then (scanStr r1).map (fun x => (b :: e :: x.1, x.2))
        else if e = ch 'u' then
          match r1 with
          | h1 :: h2 :: h3 :: h4 :: r2 =>
            if isHexByte h1 && isHexByte h2 && isHexByte h3 && isHexByte h4 then
              (scanStr r2).map (fun x => (b :: e :: h1 :: h2 :: h3 :: h4 :: x.1, x.2))
            else none
          | _ => none
        else none
    else if b.toNat < 0x20 then none
    else (scanStr r).map (fun x => (b :: x.1, x.2))

def isDigitByte (b : UInt8) : Bool := decide (0x30 ≤ b.toNat) && decide (b.toNat ≤ 0x39)

/-- a byte that can occur in a number -/
def isNumByte (b : UInt8) : Bool := isDigitByte b || b == ch '-' || b == ch '+' || b == ch '.' || b == ch 'e' || b == ch 'E'

/-- an exponent, or nothing -/
def isExp (b : Bytes) : Bool :=
  match b with
  | [] => true
  | e :: r =>
    (e == ch 'e' || e == ch 'E') &&
      (match r with
       | [] => false
       | s :: r1 => if s == ch '+' || s == ch '-' then decide (r1 ≠ []) && r1.all isDigitByte else (s :: r1).all isDigitByte)

/-- a fraction and an exponent, or nothing -/
def isFrac (b : Bytes) : Bool :=
  match b with
  | [] => true
  | p :: r =>
    if p == ch '.' then decide (r.takeWhile isDigitByte ≠ []) && isExp (r.dropWhile isDigitByte) else isExp (p :: r)

/-- a JSON number without sign -/
def isUnsigned (b : Bytes) : Bool :=
  match b with
  | [] => false
  | z :: r => if z == ch '0' then isFrac r else isDigitByte z && isFrac (r.dropWhile isDigitByte)

/-- a JSON number -/
def isNumber (b : Bytes) : Bool :=
  match b with
  | [] => false
  | m :: r => if m == ch '-' then isUnsigned r else isUnsigned (m :: r)

def scanNum (b : Bytes) : Option (JV × Bytes) :=
  if isNumber (b.takeWhile isNumByte) then some (.num (b.takeWhile isNumByte), b.dropWhile isNumByte) else none

/-- a literal word -/
def scanWord (w : Str) (v : JV) (b : Bytes) : Option (JV × Bytes) :=
  if b.take w.length = w.map ch then some (v, b.drop w.length) else none

mutual

/-- A value, beginning at the first byte, and what follows it.  The first argument bounds the number of steps; the length of
the text is enough. -/
def scanVal : Nat → Bytes → Option (JV × Bytes)
  | 0, _ => none
  | _, [] => none
  | n + 1, b :: r =>
    if b = ch '{' then
      match skipWs r with
      | [] => none
      | x :: r1 => if x = ch '}' then some (.obj [], r1) else (scanMembers n (x :: r1)).map (fun y => (.obj y.1, y.2))
    else if b = ch '[' then
      match skipWs r with
      | [] => none
      | x :: r1 => if x = ch ']' then some (.arr [], r1) else (scanElems n (x :: r1)).map (fun y => (.arr y.1, y.2))
    else if b = ch '"' then (scanStr r).map (fun y => (.str y.1, y.2))
    else if b = ch 't' then scanWord "true".toList (.bool true) (b :: r)
    else if b = ch 'f' then scanWord "false".toList (.bool false) (b :: r)
    else if b = ch 'n' then scanWord "null".toList .null (b :: r)
    else scanNum (b :: r)

/-- the elements of an array and its closing bracket -/
def scanElems : Nat → Bytes → Option (List JV × Bytes)
  | 0, _ => none
  | n + 1, b =>
    match scanVal n b with
    | none => none
    | some (v, r) =>
      match skipWs r with
      | [] => none
      | x :: r1 =>
        if x = ch ']' then some ([v], r1)
        else if x = ch ',' then (scanElems n (skipWs r1)).map (fun y => (v :: y.1, y.2))
        else none

/-- the members of an object and its closing brace -/
def scanMembers : Nat → Bytes → Option (List (Bytes × JV) × Bytes)
  | 0, _ => none
  | _, [] => none
  | n + 1, q :: b =>
    if q = ch '"' then
      match scanStr b with
      | none => none
      | some (k, r) =>
        match skipWs r with
        | [] => none
        | c :: r1 =>
          if c = ch ':' then
            match scanVal n (skipWs r1) with
            | none => none
            | some (v, r2) =>
              match skipWs r2 with
              | [] => none
              | x :: r3 =>
                if x = ch '}' then some ([(k, v)], r3)
                else if x = ch ',' then (scanMembers n (skipWs r3)).map (fun y => ((k, v) :: y.1, y.2))
                else none
          else none
    else none

end

/-- `encoding/json.checkValid` and the tree of the text -/
def parseJson (b : Bytes) : Option JV :=
  match scanVal b.length (skipWs b) with
  | none => none
  | some (v, r) => if skipWs r = [] then some v else none

/-! ## Reading: values -/

def hexVal (b : UInt8) : Nat :=
  if b.toNat ≤ 0x39 then b.toNat - 0x30 else if b.toNat ≤ 0x46 then b.toNat - 0x41 + 10 else b.toNat - 0x61 + 10

def isSurrogate (n : Nat) : Bool := decide (0xD800 ≤ n) && decide (n < 0xE000)

/-- `encoding/json.getu4` -/
def getU4 : Bytes → Option Nat
  | a :: u :: h1 :: h2 :: h3 :: h4 :: _ =>
    if a = ch '\\' ∧ u = ch 'u' then some (hexVal h1 * 4096 + hexVal h2 * 256 + hexVal h3 * 16 + hexVal h4) else none
  | _ => none

/-- the character after a backslash, `u` excepted -/
def escVal (e : UInt8) : Char :=
  if e = ch 'b' then Char.ofNat 8 else if e = ch 'f' then Char.ofNat 12 else if e = ch 'n' then Char.ofNat 10
  else if e = ch 'r' then Char.ofNat 13 else if e = ch 't' then Char.ofNat 9 else Char.ofNat e.toNat

/-- `encoding/json.unquoteBytes` of a string that has passed the scanner; surrogates that are no pair and bytes that are no
UTF-8 become `U+FFFD` -/
def unescN : Nat → Bytes → Str
  | 0, _ => []
  | _, [] => []
  | n + 1, b :: r =>
    if b = ch '\\' then
      match getU4 (b :: r) with
      | some u =>
        if isSurrogate u then
          match getU4 (r.drop 5) with
          | some u2 =>
            if u < 0xDC00 ∧ 0xDC00 ≤ u2 ∧ u2 < 0xE000 then
              Char.ofNat (0x10000 + (u - 0xD800) * 1024 + (u2 - 0xDC00)) :: unescN n (r.drop 11)
            else badRune :: unescN n (r.drop 5)
          | none => badRune :: unescN n (r.drop 5)
        else Char.ofNat u :: unescN n (r.drop 5)
      | none => escVal (r.headD 0) :: unescN n (r.drop 1)
    else (decodeRune (b :: r)).1 :: unescN n (r.drop ((decodeRune (b :: r)).2 - 1))

def unesc (raw : Bytes) : Str := unescN raw.length raw

/-- `encoding/json.foldName`, as far as it matters for ASCII names: letters of either case, and the two other characters that
fold to letters (`K` U+212A, `ſ` U+017F) -/
def foldChar (c : Char) : Char :=
  if c.toNat = 0x212A then 'K' else if c.toNat = 0x17F then 'S' else c.toUpper

/-- the key `k` means the field `name` -/
def isField (name k : Str) : Bool := k.map foldChar == name.map foldChar

/-- a string field: `null` and values of another type leave it -/
def strField (old : Str) : JV → Str
  | .str raw => unesc raw
  | _ => old

/-- `[]string` -/
def readStrs : JV → List Str
  | .arr l => l.map (strField [])
  | _ => []

/-- decoding `[]string` meets a value of another type -/
def badStrs : JV → Bool
  | .arr l => l.any (fun v => match v with | .str _ => false | .null => false | _ => true)
  | .null => false
  | _ => true

/-- `map[string][]string`, on top of what is there -/
def readDMap (m : DMap) : JV → DMap
  | .obj l => l.foldl (fun a e => mset a (unesc e.1) (readStrs e.2)) m
  | _ => m

/-- decoding `map[string][]string` meets a value of another type -/
def badDMap : JV → Bool
  | .obj l => l.any (fun e => badStrs e.2)
  | .null => false
  | _ => true

/-- pkg/ocfl/inventorytypes.go:95-126, a user: address, name, and whether they are no strings -/
def readUser (l : List (Bytes × JV)) : (Str × Bool) × (Str × Bool) :=
  l.foldl (fun u e =>
    if isField "address".toList (unesc e.1) then
      ((match e.2 with | .str raw => (unesc raw, u.1.2) | .null => ([], false) | _ => (u.1.1, true)), u.2)
    else if isField "name".toList (unesc e.1) then
      (u.1, (match e.2 with | .str raw => (unesc raw, u.2.2) | .null => ([], false) | _ => (u.2.1, true)))
    else u) (([], false), ([], false))

def noVersion : Version := { created := [], message := [], userName := [], userAddress := [], state := [] }

/-- a `Version` nothing has been read into -/
def emptyMeta : VMeta := { createdNil := true, userNil := true, messageNil := true, stateNil := true }

/-- pkg/ocfl/inventorytypes.go:23-93, 137-142: one member of a version -/
def readVersionField (c : Clock) (x : Version × VMeta) (k : Str) (v : JV) : Version × VMeta :=
  if isField "created".toList k then
    match v with
    | .null => ({ x.1 with created := [] }, { x.2 with createdNil := true, createdErr := false })
    | .str raw =>
      if c.ok (unesc raw) then ({ x.1 with created := unesc raw }, { x.2 with createdNil := false })
      else (x.1, { x.2 with createdNil := false, createdErr := true })
    | _ => (x.1, { x.2 with createdNil := false, createdErr := true })
  else if isField "message".toList k then
    match v with
    | .null => ({ x.1 with message := [] }, { x.2 with messageNil := true, messageErr := false })
    | .str raw => ({ x.1 with message := unesc raw }, { x.2 with messageNil := false })
    | _ => (x.1, { x.2 with messageNil := false, messageErr := true })
  else if isField "state".toList k then
    match v with
    | .null => ({ x.1 with state := [] }, { x.2 with stateNil := true, stateErr := false })
    | v => ({ x.1 with state := readDMap [] v }, { x.2 with stateNil := false, stateErr := x.2.stateErr || badDMap v })
  else if isField "user".toList k then
    match v with
    | .null => ({ x.1 with userAddress := [], userName := [] },
        { x.2 with userNil := true, userErr := false, nameErr := false, addrErr := false })
    | .obj l => ({ x.1 with userAddress := (readUser l).1.1, userName := (readUser l).2.1 },
        { x.2 with userNil := false, addrErr := (readUser l).1.2, nameErr := (readUser l).2.2 })
    | _ => (x.1, { x.2 with userNil := false, userErr := true })
  else x

/-- one entry of `versions` -/
def readVersion (c : Clock) : JV → Version × VMeta
  | .null => (noVersion, { isNil := true })
  | .obj l => l.foldl (fun x e => readVersionField c x (unesc e.1) e.2) (noVersion, emptyMeta)
  | _ => (noVersion, emptyMeta)

/-- pkg/ocfl/inventorytypes.go:224-232 -/
def readVersions (c : Clock) : JV → AMap Str (Version × VMeta)
  | .obj l => l.foldl (fun a e => mset a (unesc e.1) (readVersion c e.2)) []
  | _ => []

/-- one member of the inventory -/
def readField (c : Clock) (x : RawInv) (k : Str) (v : JV) : RawInv :=
  if isField "id".toList k then { x with inv := { x.inv with id := strField x.inv.id v } }
  else if isField "type".toList k then { x with inv := { x.inv with spec := strField x.inv.spec v } }
  else if isField "digestAlgorithm".toList k then { x with inv := { x.inv with digestAlg := strField x.inv.digestAlg v } }
  else if isField "head".toList k then
    match v with
    | .null => { x with inv := { x.inv with head := [] }, headNil := true, headErr := false }
    | .str raw => { x with inv := { x.inv with head := unesc raw }, headNil := false }
    | _ => { x with headNil := false, headErr := true }
  else if isField "contentDirectory".toList k then
    { x with inv := { x.inv with contentDirectory := strField x.inv.contentDirectory v } }
  else if isField "manifest".toList k then
    match v with
    | .null => { x with inv := { x.inv with manifest := [] }, manifestNil := true }
    | v => { x with inv := { x.inv with manifest := readDMap [] v }, manifestNil := false }
  else if isField "versions".toList k then
    match v with
    | .null => { x with inv := { x.inv with versions := [] }, vmeta := [], versionsNil := true }
    | v => { x with inv := { x.inv with versions := (readVersions c v).map (fun e => (e.1, e.2.1)) },
                    vmeta := (readVersions c v).map (fun e => (e.1, e.2.2)), versionsNil := false }
  else if isField "fixity".toList k then
    match v with
    | .null => { x with inv := { x.inv with fixity := [] } }
    | .obj l => { x with inv := { x.inv with fixity := l.foldl (fun a e => mset a (unesc e.1) (readDMap [] e.2)) x.inv.fixity } }
    | _ => x
  else x

/-- pkg/ocfl/objectbase.go:237-263: the value of `type` decides about the version; `none`: the text is no JSON object or has
no `type` that is a string -/
def jsonType : JV → Option Str
  | .obj l =>
    match mget (l.foldl (fun (a : AMap Str JV) e => mset a (unesc e.1) e.2) []) "type".toList with
    | some (.str raw) => some (unesc raw)
    | _ => none
  | _ => none

/-- pkg/ocfl/inventorybase.go:40-56: the inventory that is read into -/
def blankRaw (spec : Str) : RawInv :=
  { inv := { newInv [] spec [] [] [] with head := [] }, vmeta := [], manifestNil := true }

def inventory10 : Str := "https://ocfl.io/1.0/spec/#inventory".toList
def inventory11 : Str := "https://ocfl.io/1.1/spec/#inventory".toList

/-- pkg/ocfl/objectbase.go:237-280 `loadInventory` before `Finalize` -/
def invOfText (c : Clock) (b : Bytes) : Option RawInv :=
  match parseJson b with
  | none => none
  | some v =>
    match jsonType v with
    | none => none
    | some t =>
      match v with
      | .obj l => some (l.foldl (fun x e => readField c x (unesc e.1) e.2)
          (blankRaw (if t = inventory11 then inventory11 else inventory10)))
      | _ => none

/-- a world whose inventories are files of JSON text -/
def jsonWorld (w : World) (c : Clock) : World := { w with enc := invText c, dec := invOfText c, time := c.time }

end Gocfl
