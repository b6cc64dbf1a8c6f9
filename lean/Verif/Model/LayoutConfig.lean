import Verif.Model.DirectClean

/-!
# Model of the layout extensions with their configuration files

A configuration file is a JSON object; missing keys are read as zero values.  `hashes` gives the digest functions the
program knows (`checksum.GetHash`).
-/

namespace Gocfl

/-- a configuration file: extension name and the fields by kind -/
structure CfgFile where
  name : Str
  ints : AMap Str Int
  strs : AMap Str Str
  bools : AMap Str Bool
  deriving DecidableEq, Repr

def CfgFile.int (f : CfgFile) (k : Str) : Int := (mget f.ints k).getD 0
def CfgFile.str (f : CfgFile) (k : Str) : Str := (mget f.strs k).getD []
def CfgFile.bool (f : CfgFile) (k : Str) : Bool := (mget f.bools k).getD false

/-- the layouts -/
inductive Layout where
  | flatDirect
  | pathDirect
  | hashId (alg : Str) (c : TupleCfg)
  | hashed (alg : Str) (c : TupleCfg)
  | flatOmit (delimiter : Str)
  | tupleOmit (c : OmitCfg)
  | pairtree (alg : Str) (shorty : Int)
  | directClean (alg : Str) (c : DCCfg)
  deriving DecidableEq, Repr

def nmFlatDirect : Str := "0002-flat-direct-storage-layout".toList
def nmPathDirect : Str := "NNNN-direct-path-layout".toList
def nmHashId : Str := "0003-hash-and-id-n-tuple-storage-layout".toList
def nmHashed : Str := "0004-hashed-n-tuple-storage-layout".toList
def nmFlatOmit : Str := "0006-flat-omit-prefix-storage-layout".toList
def nmTupleOmit : Str := "0007-n-tuple-omit-prefix-storage-layout".toList
def nmPairtree : Str := "NNNN-pairtree-storage-layout".toList
def nmDirectClean : Str := "NNNN-direct-clean-path-layout".toList

def kTupleSize : Str := "tupleSize".toList
def kNumber : Str := "numberOfTuples".toList
def kShort : Str := "shortObjectRoot".toList
def kAlg : Str := "digestAlgorithm".toList
def kDelim : Str := "delimiter".toList
def kPad : Str := "zeroPadding".toList
def kReverse : Str := "reverseObjectRoot".toList
def kShorty : Str := "shortyLength".toList
def kMaxPath : Str := "maxPathnameLen".toList
def kMaxSeg : Str := "maxPathSegmentLen".toList
def kRepl : Str := "replacementString".toList
def kWhite : Str := "whitespaceReplacementString".toList
def kUtf : Str := "utfEncode".toList
def kFbAlg : Str := "fallbackDigestAlgorithm".toList
def kFbFolder : Str := "fallbackFolder".toList
def kFbNumber : Str := "numberOfFallbackTuples".toList
def kFbSize : Str := "fallbackTupleSize".toList
def kOldMax : Str := "maxFilenameLen".toList
def kOldSub : Str := "fallbackSubdirs".toList

def needHash (hashes : Str → Option (Str → Str)) (alg : Str) (l : Layout) : Res Layout :=
  match hashes alg with
  | none => .error (.error "hash not found")
  | some _ => .ok l

/-- NNNN-direct-clean-path-layout.go:58-99: old keys, then defaults -/
def readDC (f : CfgFile) : DCCfg :=
  let mp := if f.int kOldMax > 0 ∧ f.int kMaxPath = 0 then f.int kOldMax else f.int kMaxPath
  let nt := if f.int kOldSub > 0 ∧ f.int kFbNumber = 0 then f.int kOldSub else f.int kFbNumber
  newDC { maxPathname := mp, maxSegment := f.int kMaxSeg, repl := f.str kRepl, white := f.str kWhite, utf := f.bool kUtf
          folder := f.str kFbFolder, tuples := nt, tupleSize := f.int kFbSize }

def readDCAlg (f : CfgFile) : Str := if f.str kFbAlg = [] then "sha512".toList else f.str kFbAlg

/-- pkg/ocfl/extensionFactory.go:56-81 with the constructors 0002:16-39, 0003:19-57, 0004:19-57, 0006:17-40, 0007:32-55,
NNNN-pairtree:85-113, NNNN-direct-clean:50-99, pathdirect.go:15-39.  An unknown name is an error. -/
def loadLayout (hashes : Str → Option (Str → Str)) (f : CfgFile) : Res Layout :=
  if f.name = nmFlatDirect then .ok .flatDirect
  else if f.name = nmPathDirect then .ok .pathDirect
  else if f.name = nmHashId then
    needHash hashes (f.str kAlg) (.hashId (f.str kAlg) (newTupleCfg ⟨f.int kTupleSize, f.int kNumber, false⟩))
  else if f.name = nmHashed then
    needHash hashes (f.str kAlg) (.hashed (f.str kAlg) (newTupleCfg ⟨f.int kTupleSize, f.int kNumber, f.bool kShort⟩))
  else if f.name = nmFlatOmit then .ok (.flatOmit (f.str kDelim))
  else if f.name = nmTupleOmit then
    .ok (.tupleOmit ⟨f.str kDelim, f.int kTupleSize, f.int kNumber, f.str kPad, f.bool kReverse⟩)
  else if f.name = nmPairtree then needHash hashes (f.str kAlg) (.pairtree (f.str kAlg) (f.int kShorty))
  else if f.name = nmDirectClean then needHash hashes (readDCAlg f) (.directClean (readDCAlg f) (readDC f))
  else .error (.error "unknown extension")

/-- `WriteConfig`: 0002:78-93, 0003:100-115, 0004:99-114, 0006:80-95, 0007:100-115 and NNNN-pairtree:123-138 encode only
the embedded `ExtensionConfig`, i.e. the name; pathdirect.go:95-110 has no other fields; NNNN-direct-clean:157-173 encodes
everything. -/
def writeConfig : Layout → CfgFile
  | .flatDirect => ⟨nmFlatDirect, [], [], []⟩
  | .pathDirect => ⟨nmPathDirect, [], [], []⟩
  | .hashId _ _ => ⟨nmHashId, [], [], []⟩
  | .hashed _ _ => ⟨nmHashed, [], [], []⟩
  | .flatOmit _ => ⟨nmFlatOmit, [], [], []⟩
  | .tupleOmit _ => ⟨nmTupleOmit, [], [], []⟩
  | .pairtree _ _ => ⟨nmPairtree, [], [], []⟩
  | .directClean alg c =>
    ⟨nmDirectClean, [(kMaxPath, c.maxPathname), (kMaxSeg, c.maxSegment), (kFbNumber, c.tuples), (kFbSize, c.tupleSize)],
      [(kRepl, c.repl), (kWhite, c.white), (kFbAlg, alg), (kFbFolder, c.folder)], [(kUtf, c.utf)]⟩

/-- `BuildStorageRootPath` of every layout.  Ids are taken as valid UTF-8 where the layout works on runes. -/
def layoutPath (hashes : Str → Option (Str → Str)) (l : Layout) (id : Str) : Res Str :=
  match l with
  | .flatDirect => .ok (layout0002 id)
  | .pathDirect => .ok (layout0002 id)
  | .hashId alg c => layout0003 ((hashes alg).getD (fun _ => [])) c id
  | .hashed alg c => layout0004 ((hashes alg).getD (fun _ => [])) c id
  | .flatOmit d => .ok (layout0006 d id)
  | .tupleOmit c => layout0007 c id
  | .pairtree _ n => layoutPairtree n id
  | .directClean alg c => dcBuild ((hashes alg).getD (fun _ => [])) c id

/-- the extension named in `ocfl_layout.json` by `WriteLayout`: 0002:107, 0003:173, 0004:150, 0006:109, 0007:129,
NNNN-pairtree:65, NNNN-direct-clean:186, pathdirect.go:87 -/
def layoutFileName : Layout → Str
  | .flatDirect => nmFlatDirect
  | .pathDirect => nmFlatDirect
  | .hashId _ _ => nmHashId
  | .hashed _ _ => nmHashed
  | .flatOmit _ => nmFlatOmit
  | .tupleOmit _ => nmTupleOmit
  | .pairtree _ _ => nmFlatDirect
  | .directClean _ _ => nmPathDirect

end Gocfl
