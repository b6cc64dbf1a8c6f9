import Verif.Model.Load

/-!
# Model of the validation report (`pkg/ocfl/validationerror.go`, `validationerror1_0.go`, `validationerror1_1.go`)
-/

namespace Gocfl

/-- pkg/ocfl/validationerror.go:142-149 `ValidationError`.  Simplification: `Ref` (a link) is left out. -/
structure ValErr where
  code : Str
  description : Str
  description2 : Str
  context : Str
  version : Str
  deriving DecidableEq, Repr

/-- pkg/ocfl/validationerror.go:13-140: all codes -/
def allCodes : List Str := (
  ["E000", "E001", "E002", "E003", "E004", "E005", "E006", "E007", "E008", "E009", "E010", "E011", "E012", "E013",
   "E014", "E015", "E016", "E017", "E018", "E019", "E020", "E021", "E022", "E023", "E024", "E025", "E026", "E027",
   "E028", "E029", "E030", "E031", "E032", "E033", "E034", "E035", "E036", "E037", "E038", "E039", "E040", "E041",
   "E042", "E043", "E044", "E045", "E046", "E047", "E048", "E049", "E050", "E051", "E052", "E053", "E054", "E055",
   "E056", "E057", "E058", "E059", "E060", "E061", "E062", "E063", "E064", "E066", "E067", "E068", "E069", "E070",
   "E071", "E072", "E073", "E074", "E075", "E076", "E077", "E078", "E079", "E080", "E081", "E082", "E083", "E084",
   "E085", "E086", "E087", "E088", "E089", "E090", "E091", "E092", "E093", "E094", "E095", "E096", "E097", "E098",
   "E099", "E100", "E101", "E102", "E103", "E104", "E105", "E106", "E107", "E108", "E110", "E111", "E112", "W000",
   "W001", "W002", "W003", "W004", "W005", "W007", "W008", "W009", "W010", "W011", "W012", "W013", "W014", "W015",
   "W016"] : List String).map String.toList

/-- pkg/ocfl/validationerror1_0.go:12-130: keys of `OCFLValidationError1_0` (each is the code of its entry) -/
def codes10 : List Str := (
  ["E000", "E001", "E002", "E003", "E004", "E005", "E006", "E007", "E008", "E009", "E010", "E011", "E012", "E013",
   "E014", "E015", "E016", "E017", "E018", "E019", "E020", "E021", "E022", "E023", "E024", "E025", "E026", "E027",
   "E028", "E029", "E030", "E031", "E032", "E033", "E034", "E035", "E036", "E037", "E038", "E039", "E040", "E041",
   "E042", "E043", "E044", "E045", "E046", "E047", "E048", "E049", "E050", "E051", "E052", "E053", "E054", "E055",
   "E056", "E057", "E058", "E059", "E060", "E061", "E062", "E063", "E064", "E066", "E067", "E068", "E069", "E070",
   "E071", "E072", "E073", "E074", "E075", "E076", "E077", "E078", "E079", "E080", "E081", "E082", "E083", "E084",
   "E085", "E086", "E087", "E088", "E089", "E090", "E091", "E092", "E093", "E094", "E095", "E096", "E097", "E098",
   "E099", "E100", "E101", "E102", "W001", "W002", "W003", "W004", "W005", "W007", "W008", "W009", "W010", "W011",
   "W012", "W013", "W014", "W015"] : List String).map String.toList

/-- pkg/ocfl/validationerror1_1.go:10-136: keys of `OCFLValidationError1_1` (each is the code of its entry) -/
def codes11 : List Str := (
  ["E000", "E001", "E002", "E003", "E004", "E005", "E006", "E007", "E008", "E009", "E010", "E011", "E012", "E013",
   "E014", "E015", "E016", "E017", "E018", "E019", "E020", "E021", "E022", "E023", "E024", "E025", "E026", "E027",
   "E028", "E029", "E030", "E031", "E032", "E033", "E034", "E035", "E036", "E037", "E038", "E039", "E040", "E041",
   "E042", "E043", "E044", "E045", "E046", "E047", "E048", "E049", "E050", "E051", "E052", "E053", "E054", "E055",
   "E056", "E057", "E058", "E059", "E060", "E061", "E062", "E063", "E064", "E066", "E067", "E069", "E070", "E071",
   "E072", "E073", "E074", "E075", "E076", "E077", "E078", "E079", "E080", "E081", "E082", "E083", "E084", "E085",
   "E087", "E088", "E089", "E090", "E091", "E092", "E093", "E094", "E095", "E096", "E097", "E098", "E099", "E100",
   "E101", "E102", "E103", "E104", "E105", "E106", "E107", "E108", "E110", "E111", "E112", "W000", "W001", "W002",
   "W003", "W004", "W005", "W007", "W008", "W009", "W010", "W011", "W012", "W013", "W014", "W015", "W016"] : List String).map String.toList

/-- The tables chosen by pkg/ocfl/validationerror.go:258-269: `1.1`, everything else is `1.0`. -/
def errTable (version : Str) : List Str := if version = "1.1".toList then codes11 else codes10

/-- pkg/ocfl/validationerror1_0.go:8-10 and validationerror1_1.go:8: replacement codes -/
def errMapping (version : Str) : AMap Str Str :=
  if version = "1.1".toList then [] else [("E104".toList, "E001".toList)]

/-- the entry of a code; `text` gives the description in the table of a version -/
def tableEntry (text : Str → Str → Str) (version code : Str) : Option ValErr :=
  if code ∈ errTable version then
    some { code := code, description := text version code, description2 := [], context := [],
           version := if version = "1.1".toList then "1.1".toList else "1.0".toList }
  else none

/-- pkg/ocfl/validationerror.go:273-285: the entry made up for a code without table entry and replacement -/
def unknownEntry (code : Str) : ValErr :=
  if code.head? = some 'W' then
    { code := "W000".toList, description := "unknown warning ".toList ++ code, description2 := [], context := [],
      version := [] }
  else
    { code := "E000".toList, description := "unknown error ".toList ++ code, description2 := [], context := [],
      version := [] }

/-- pkg/ocfl/validationerror.go:257-295 `GetValidationError`; `none` is the nil pointer -/
def getValidationError (text : Str → Str → Str) (version code : Str) : Option ValErr :=
  match tableEntry text version code with
  | some e => some e
  | none =>
    match mget (errMapping version) code with
    | none => some (unknownEntry code)
    | some c => tableEntry text version c

/-- pkg/ocfl/validationerror.go:221-228 `AppendDescription` (context and version are not taken over); `s` is the
formatted text -/
def ValErr.appendDescription (e : ValErr) (s : Str) : ValErr :=
  { code := e.code, description := e.description, description2 := trimSpace (e.description2 ++ ' ' :: s), context := [],
    version := [] }

/-- pkg/ocfl/validationerror.go:230-238 `AppendContext` (the version is not taken over) -/
def ValErr.appendContext (e : ValErr) (s : Str) : ValErr :=
  { code := e.code, description := e.description, description2 := e.description2,
    context := trimSpace (e.context ++ ' ' :: s), version := [] }

/-- pkg/ocfl/validationerror.go:248-255 `DetailString` -/
def ValErr.detailString (e : ValErr) : Str :=
  if e.version = "1.1".toList then "ocfl11.".toList ++ e.code else "ocfl10.".toList ++ e.code

/-- pkg/ocfl/objectbase.go:68-80 and storagerootbase.go:68-80: the finding recorded for a code -/
def record (text : Str → Str → Str) (version code desc context : Str) : Option ValErr :=
  (getValidationError text version code).map (fun e => (e.appendDescription desc).appendContext context)

/-- pkg/ocfl/objectbase.go:69 and 76: the context of findings about an object; `folder` is `fmt.Sprint(object.fsys)` -/
def objContext (folder id : Str) : Str := "object '".toList ++ folder ++ "' - '".toList ++ id ++ "'".toList

/-- pkg/ocfl/storagerootbase.go:69 and 76: the context of findings about a storage root -/
def rootContext (folder : Str) : Str := "storage root '".toList ++ folder ++ "' ".toList

/-- pkg/ocfl/validationerror.go:169-171: findings regarded as the same -/
def sameFinding (a b : ValErr) : Bool :=
  decide (a.context = b.context) && decide (a.code = b.code) && decide (a.description2 = b.description2)

/-- pkg/ocfl/validationerror.go:162: the sort key -/
def sortKey (e : ValErr) : Str := e.context ++ (e.code ++ e.description2)

def isRoot (e : ValErr) : Bool := hasPrefix e.context "storage root".toList

/-- pkg/ocfl/validationerror.go:155-163 `validationSort(a, b) < 0` -/
def validationLess (a b : ValErr) : Bool :=
  if isRoot a ≠ isRoot b then true else strLt (sortKey a) (sortKey b)

/-- one step of `insertionSortCmpFunc` of golang.org/x/exp/slices (used for at most 12 elements): `x` moves to the
left as long as it compares less than its neighbour; the list is reversed (last element first) -/
def moveLeft {α : Type} (less : α → α → Bool) (x : α) : List α → List α
  | [] => [x]
  | y :: ys => if less x y then y :: moveLeft less x ys else x :: y :: ys

/-- `insertionSortCmpFunc` -/
def insertionSort {α : Type} (less : α → α → Bool) (l : List α) : List α :=
  (l.foldl (fun acc x => moveLeft less x acc) []).reverse

/-- `slices.CompactFunc` of a list beginning with `a` -/
def compactFrom {α : Type} (eq : α → α → Bool) (a : α) : List α → List α
  | [] => [a]
  | b :: l => if eq a b then compactFrom eq a l else a :: compactFrom eq b l

/-- `slices.CompactFunc` -/
def compactFunc {α : Type} (eq : α → α → Bool) : List α → List α
  | [] => []
  | a :: l => compactFrom eq a l

/-- pkg/ocfl/validationerror.go:166-171 `Compact`; `sorted` is the outcome of `slices.SortFunc` -/
def compacted (sorted : List ValErr) : List ValErr := compactFunc sameFinding sorted

/-- gocfl/cmd/helper.go:286-301 `showStatus`: number of errors printed (`none`: index out of range panic for an
empty code) -/
def errorCount (l : List ValErr) : Option Nat :=
  if l.any (fun e => decide (e.code = [])) then none
  else some (l.countP (fun e => decide (e.code.head? = some 'E')))

end Gocfl
