import Verif.Props.LayoutConfig

/-!
# C111, C112: configuration files mean what their documentation says
-/

namespace Gocfl

/-! ## C111: the direct-clean layout -/

/-- the documented name of the switch (docs/NNNN-direct-clean-path-layout.md:59) -/
def dEncode : Str := "encodeUTF".toList

/-- The parameters as documented (docs/NNNN-direct-clean-path-layout.md:59-111): a parameter left out has its default. -/
def docDC (f : CfgFile) : DCCfg where
  maxPathname := (mget f.ints kMaxPath).getD 32000
  maxSegment := (mget f.ints kMaxSeg).getD 127
  repl := (mget f.strs kRepl).getD "_".toList
  white := (mget f.strs kWhite).getD " ".toList
  utf := (mget f.bools dEncode).getD false
  folder := (mget f.strs kFbFolder).getD "fallback".toList
  tuples := (mget f.ints kFbNumber).getD 0
  tupleSize := (mget f.ints kFbSize).getD 1

/-- docs/NNNN-direct-clean-path-layout.md:90-94 -/
def docDCAlg (f : CfgFile) : Str := (mget f.strs kFbAlg).getD "md5".toList

/-- a configuration file as documented: documented keys, values within the documented constraints, digests the program
knows -/
structure DocFile (hashes : Str → Option (Str → Str)) (f : CfgFile) : Prop where
  name : f.name = nmDirectClean
  ints : ∀ k ∈ mkeys f.ints, k ∈ [kMaxPath, kMaxSeg, kFbNumber, kFbSize]
  bools : ∀ k ∈ mkeys f.bools, k = dEncode
  maxPath : ∀ n, mget f.ints kMaxPath = some n → 0 < n
  maxSeg : ∀ n, mget f.ints kMaxSeg = some n → 0 < n
  tuples : ∀ n, mget f.ints kFbNumber = some n → 0 ≤ n
  size : ∀ n, mget f.ints kFbSize = some n → 0 < n
  folder : ∀ s, mget f.strs kFbFolder = some s → s ≠ []
  alg : docDCAlg f ≠ []
  known : (hashes (docDCAlg f)).isSome = true

/-- C111 in full: such a file is read, and ids are mapped as the documented parameters say. -/
def C111_full : Prop :=
  ∀ (hashes : Str → Option (Str → Str)) (f : CfgFile), DocFile hashes f →
    ∃ l, loadLayout hashes f = .ok l ∧
      ∀ id, layoutPath hashes l id = layoutPath hashes (.directClean (docDCAlg f) (docDC f)) id

theorem mget_none_of {V : Type} {m : AMap Str V} {ks : List Str} (h : ∀ k ∈ mkeys m, k ∈ ks) {k : Str} (hk : k ∉ ks) :
    mget m k = none := by
  cases h1 : mget m k with
  | none => rfl
  | some v => exact absurd (h k (mem_mkeys_of_mem (mem_of_mget h1))) hk

theorem loadLayout_dc (hashes : Str → Option (Str → Str)) {f : CfgFile} (h : f.name = nmDirectClean) :
    loadLayout hashes f = needHash hashes (readDCAlg f) (.directClean (readDCAlg f) (readDC f)) := by
  unfold loadLayout
  rw [h, if_neg (by decide), if_neg (by decide), if_neg (by decide), if_neg (by decide), if_neg (by decide),
    if_neg (by decide), if_neg (by decide), if_pos rfl]

theorem dcTuples_zero (c c' : DCCfg) (d p : Str) : dcTuples c d 0 p = dcTuples c' d 0 p := by
  unfold dcTuples; rfl

theorem dcSegs_congr {c c' : DCCfg} (h1 : ∀ n, dcSeg c n = dcSeg c' n) (h2 : c.maxSegment = c'.maxSegment) (ns : List Str) :
    dcSegs c ns = dcSegs c' ns := by
  induction ns with
  | nil => rfl
  | cons n ns ih => simp only [dcSegs, h1, h2, ih]

/-- the tuple size has no effect if there are no tuples -/
theorem dcBuild_size (hash : Str → Str) (c : DCCfg) (h : c.tuples = 0) (n : Int) (p : Str) :
    dcBuild hash { c with tupleSize := n } p = dcBuild hash c p := by
  have h1 : dcSegs { c with tupleSize := n } (splitOn '/' p) = dcSegs c (splitOn '/' p) :=
    dcSegs_congr (c := { c with tupleSize := n }) (c' := c) (fun _ => rfl) rfl _
  have h2 : ∀ q, dcFallback hash { c with tupleSize := n } q = dcFallback hash c q := by
    intro q
    unfold dcFallback
    simp only [h]
    rfl
  unfold dcBuild
  rw [h1]
  simp only [h2]

/-- **C111**, for files that name the strings: replacements, digest and — if there are fallback tuples — their size are
given, and UTF encoding is not asked for.  Then the mapping is the documented one.  Missing: defaults of these parameters
and the switch `encodeUTF`, see the theorems below. -/
theorem C111_documented_partial {hashes : Str → Option (Str → Str)} {f : CfgFile} (hf : DocFile hashes f)
    (hr : (mget f.strs kRepl).isSome = true) (hwh : (mget f.strs kWhite).isSome = true)
    (ha : (mget f.strs kFbAlg).isSome = true) (hs : (mget f.ints kFbSize).isSome = true ∨ mget f.ints kFbNumber = none)
    (hu : mget f.bools dEncode ≠ some true) :
    ∃ l, loadLayout hashes f = .ok l ∧
      ∀ id, layoutPath hashes l id = layoutPath hashes (.directClean (docDCAlg f) (docDC f)) id := by
  obtain ⟨r, hr⟩ := Option.isSome_iff_exists.1 hr
  obtain ⟨wh, hwh⟩ := Option.isSome_iff_exists.1 hwh
  obtain ⟨a, ha⟩ := Option.isSome_iff_exists.1 ha
  have hda : docDCAlg f = a := by unfold docDCAlg; rw [ha]; rfl
  have hne : a ≠ [] := hda ▸ hf.alg
  have hra : readDCAlg f = a := by
    unfold readDCAlg CfgFile.str
    rw [ha]
    exact if_neg hne
  obtain ⟨g, hg⟩ := Option.isSome_iff_exists.1 hf.known
  rw [hda] at hg
  have h0 : f.int kOldMax = 0 := by
    unfold CfgFile.int; rw [mget_none_of hf.ints (by decide)]; rfl
  have h1 : f.int kOldSub = 0 := by
    unfold CfgFile.int; rw [mget_none_of hf.ints (by decide)]; rfl
  have hub : f.bool kUtf = false := by
    unfold CfgFile.bool
    rw [mget_none_of (ks := [dEncode]) (fun k hk => List.mem_singleton.2 (hf.bools k hk)) (by decide)]; rfl
  have hde : (mget f.bools dEncode).getD false = false := by
    cases h : mget f.bools dEncode with
    | none => rfl
    | some b => cases b with
      | false => rfl
      | true => exact absurd h hu
  have hmp : (if f.int kMaxPath = 0 then 32000 else f.int kMaxPath) = (mget f.ints kMaxPath).getD 32000 := by
    unfold CfgFile.int
    cases h : mget f.ints kMaxPath with
    | none => rfl
    | some n => have := hf.maxPath n h; simp only [Option.getD_some]; rw [if_neg (by omega)]
  have hms : (if f.int kMaxSeg = 0 then 127 else f.int kMaxSeg) = (mget f.ints kMaxSeg).getD 127 := by
    unfold CfgFile.int
    cases h : mget f.ints kMaxSeg with
    | none => rfl
    | some n => have := hf.maxSeg n h; simp only [Option.getD_some]; rw [if_neg (by omega)]
  have hfo : (if f.str kFbFolder = [] then "fallback".toList else f.str kFbFolder) =
      (mget f.strs kFbFolder).getD "fallback".toList := by
    unfold CfgFile.str
    cases h : mget f.strs kFbFolder with
    | none => rfl
    | some n => simp only [Option.getD_some]; rw [if_neg (hf.folder n h)]
  have hc : readDC f = { docDC f with tupleSize := f.int kFbSize } := by
    unfold readDC newDC docDC
    simp only [h0, h1, gt_iff_lt, Int.lt_irrefl, false_and, if_false, hub, hde, hmp, hms, hfo]
    unfold CfgFile.int CfgFile.str
    rw [hr, hwh]
    rfl
  refine ⟨.directClean a (readDC f), ?_, ?_⟩
  · rw [loadLayout_dc hashes hf.name, hra]
    unfold needHash
    rw [hg]
  · intro id
    rw [hda, hc]
    simp only [layoutPath]
    rcases hs with hs | hs
    · obtain ⟨n, hn⟩ := Option.isSome_iff_exists.1 hs
      have : (docDC f).tupleSize = f.int kFbSize := by unfold docDC CfgFile.int; rw [hn]; rfl
      rw [← this]
    · refine dcBuild_size _ _ ?_ _ id
      unfold docDC
      rw [hs]
      rfl

/-- such a file -/
def exDocDC : CfgFile := ⟨nmDirectClean, [(kMaxSeg, 60), (kFbNumber, 2), (kFbSize, 3)],
  [(kRepl, "_".toList), (kWhite, " ".toList), (kFbAlg, "md5".toList)], []⟩

example : DocFile (fun _ => some (fun _ => [])) exDocDC := by
  constructor <;> decide

/-- **The documented switch has no effect** (the program reads `utfEncode`): a file with `encodeUTF` is read like the same
file without it, and names are not encoded. -/
theorem C111_full_fails_switch {hashes : Str → Option (Str → Str)} {f : CfgFile} (hf : DocFile hashes f) (b : Bool) :
    loadLayout hashes { f with bools := [(dEncode, b)] } = loadLayout hashes { f with bools := [] } ∧
    ∀ alg c, loadLayout hashes { f with bools := [(dEncode, b)] } = .ok (.directClean alg c) → c.utf = false := by
  have h1 : loadLayout hashes { f with bools := [(dEncode, b)] } = loadLayout hashes { f with bools := [] } := by
    rw [loadLayout_dc hashes (f := { f with bools := [(dEncode, b)] }) hf.name,
      loadLayout_dc hashes (f := { f with bools := [] }) hf.name]
    have : readDC { f with bools := [(dEncode, b)] } = readDC { f with bools := [] } := by
      unfold readDC
      rw [show CfgFile.bool { f with bools := [(dEncode, b)] } kUtf = CfgFile.bool { f with bools := [] } kUtf from by
        unfold CfgFile.bool mget; rfl]
      rfl
    rw [this]
    rfl
  refine ⟨h1, fun alg c h => ?_⟩
  rw [h1] at h
  obtain ⟨_, h2, _⟩ := loadLayout_directClean h
  rw [h2]
  rfl

/-- C111 is violated: with `encodeUTF` two ids get the same path. -/
theorem C111_full_fails : ¬ C111_full := by
  intro h
  obtain ⟨l, h1, h2⟩ := h (fun _ => some (fun _ => [])) ⟨nmDirectClean, [], [], [(dEncode, true)]⟩ (by
    constructor <;> decide)
  have hl : l = .directClean "sha512".toList (newDC ⟨0, 0, [], [], false, [], 0, 0⟩) := by
    have : loadLayout (fun _ => some (fun _ => [])) ⟨nmDirectClean, [], [], [(dEncode, true)]⟩ =
      .ok (.directClean "sha512".toList (newDC ⟨0, 0, [], [], false, [], 0, 0⟩)) := by rfl
    rw [this] at h1
    cases h1
    rfl
  subst hl
  have := h2 "a:b".toList
  revert this
  decide

/-- **The documented defaults of the replacements do not apply** (the program takes the empty string): without them, an id
with a colon is mapped like the id without it. -/
theorem C111_full_fails_default : ¬ ∀ (hashes : Str → Option (Str → Str)) (f : CfgFile), DocFile hashes f →
    mget f.bools dEncode = none → ∃ l, loadLayout hashes f = .ok l ∧
      ∀ id, layoutPath hashes l id = layoutPath hashes (.directClean (docDCAlg f) (docDC f)) id := by
  intro h
  obtain ⟨l, h1, h2⟩ := h (fun _ => some (fun _ => [])) ⟨nmDirectClean, [], [], []⟩ (by
    constructor <;> decide) rfl
  have hl : l = .directClean "sha512".toList (newDC ⟨0, 0, [], [], false, [], 0, 0⟩) := by
    have : loadLayout (fun _ => some (fun _ => [])) ⟨nmDirectClean, [], [], []⟩ =
      .ok (.directClean "sha512".toList (newDC ⟨0, 0, [], [], false, [], 0, 0⟩)) := by rfl
    rw [this] at h1
    cases h1
    rfl
  subst hl
  have := h2 "a:b".toList
  revert this
  decide

/-- **C111, files of older versions**: the keys they use (pkg/extension/NNNN-direct-clean-path-layout.go:63-70) mean what
the new ones mean. -/
theorem C111_old_keys {hashes : Str → Option (Str → Str)} {f : CfgFile} (hf : f.name = nmDirectClean) {n m : Int} (hn : 0 < n)
    (hm : 0 < m) (h1 : mget f.ints kMaxPath = none) (h2 : mget f.ints kFbNumber = none) :
    loadLayout hashes { f with ints := (kOldMax, n) :: (kOldSub, m) :: f.ints } =
      loadLayout hashes { f with ints := (kMaxPath, n) :: (kFbNumber, m) :: f.ints } := by
  have ne : ∀ {k k' : Str} {v : Int} {l : AMap Str Int}, k' ≠ k → mget ((k', v) :: l) k = mget l k :=
    fun h => if_neg h
  have eq : ∀ {k : Str} {v : Int} {l : AMap Str Int}, mget ((k, v) :: l) k = some v := if_pos rfl
  rw [loadLayout_dc hashes (f := { f with ints := (kOldMax, n) :: (kOldSub, m) :: f.ints }) hf,
    loadLayout_dc hashes (f := { f with ints := (kMaxPath, n) :: (kFbNumber, m) :: f.ints }) hf]
  have a1 : mget ((kOldMax, n) :: (kOldSub, m) :: f.ints) kOldMax = some n := eq
  have a2 : mget ((kOldMax, n) :: (kOldSub, m) :: f.ints) kOldSub = some m := by rw [ne (by decide), eq]
  have a3 : mget ((kOldMax, n) :: (kOldSub, m) :: f.ints) kMaxPath = none := by rw [ne (by decide), ne (by decide), h1]
  have a4 : mget ((kOldMax, n) :: (kOldSub, m) :: f.ints) kFbNumber = none := by rw [ne (by decide), ne (by decide), h2]
  have a5 : mget ((kOldMax, n) :: (kOldSub, m) :: f.ints) kMaxSeg = mget f.ints kMaxSeg := by
    rw [ne (by decide), ne (by decide)]
  have a6 : mget ((kOldMax, n) :: (kOldSub, m) :: f.ints) kFbSize = mget f.ints kFbSize := by
    rw [ne (by decide), ne (by decide)]
  have b3 : mget ((kMaxPath, n) :: (kFbNumber, m) :: f.ints) kMaxPath = some n := eq
  have b4 : mget ((kMaxPath, n) :: (kFbNumber, m) :: f.ints) kFbNumber = some m := by rw [ne (by decide), eq]
  have b5 : mget ((kMaxPath, n) :: (kFbNumber, m) :: f.ints) kMaxSeg = mget f.ints kMaxSeg := by
    rw [ne (by decide), ne (by decide)]
  have b6 : mget ((kMaxPath, n) :: (kFbNumber, m) :: f.ints) kFbSize = mget f.ints kFbSize := by
    rw [ne (by decide), ne (by decide)]
  have e : readDC { f with ints := (kOldMax, n) :: (kOldSub, m) :: f.ints } =
      readDC { f with ints := (kMaxPath, n) :: (kFbNumber, m) :: f.ints } := by
    unfold readDC CfgFile.int CfgFile.str CfgFile.bool
    simp only [a1, a2, a3, a4, a5, a6, b3, b4, b5, b6, Option.getD_some, Option.getD_none, gt_iff_lt, hn, hm, and_self,
      if_true, ne_of_gt hn, ne_of_gt hm, and_false, if_false]
  have e2 : readDCAlg { f with ints := (kOldMax, n) :: (kOldSub, m) :: f.ints } =
      readDCAlg { f with ints := (kMaxPath, n) :: (kFbNumber, m) :: f.ints } := by
    unfold readDCAlg CfgFile.str
    rfl
  rw [e, e2]

example : loadLayout (fun _ => some (fun _ => [])) ⟨nmDirectClean, [(kOldMax, 100), (kOldSub, 2)], [], []⟩ =
    .ok (.directClean "sha512".toList ⟨100, 127, [], [], false, "fallback".toList, 2, 0⟩) := by decide

/-! ## C112: the layouts of the OCFL community extensions -/

/-- The parameters of the catalogue's layouts: a parameter left out has the default of the catalogue (0003 and 0004:
`sha256`, 3 tuples of 3 characters, the whole digest as last folder; 0007: 3 tuples of 3 characters, padding left, not
reversed; 0006 and 0007 require a delimiter). -/
def catLayout (f : CfgFile) : Option Layout :=
  let alg := (mget f.strs kAlg).getD "sha256".toList
  let size := (mget f.ints kTupleSize).getD 3
  let number := (mget f.ints kNumber).getD 3
  if f.name = nmFlatDirect then some .flatDirect
  else if f.name = nmHashId then some (.hashId alg ⟨size, number, false⟩)
  else if f.name = nmHashed then some (.hashed alg ⟨size, number, (mget f.bools kShort).getD false⟩)
  else if f.name = nmFlatOmit then (mget f.strs kDelim).map .flatOmit
  else if f.name = nmTupleOmit then (mget f.strs kDelim).map (fun d =>
    .tupleOmit ⟨d, size, number, (mget f.strs kPad).getD "left".toList, (mget f.bools kReverse).getD false⟩)
  else none

/-- the constraints of the catalogue; `hashes`: the digests the program knows -/
structure CatFile (hashes : Str → Option (Str → Str)) (f : CfgFile) : Prop where
  size : ∀ n, mget f.ints kTupleSize = some n → 0 ≤ n ∧ n ≤ 32
  number : ∀ n, mget f.ints kNumber = some n → 0 ≤ n ∧ n ≤ 32
  both : (mget f.ints kTupleSize).getD 3 = 0 ↔ (mget f.ints kNumber).getD 3 = 0
  known : (hashes ((mget f.strs kAlg).getD "sha256".toList)).isSome = true

/-- C112 in full: configuration files made by other programs according to the catalogue are read with the same
meaning. -/
def C112_full : Prop :=
  ∀ (hashes : Str → Option (Str → Str)) (f : CfgFile) (l : Layout), CatFile hashes f → catLayout f = some l →
    loadLayout hashes f = .ok l

/-- the parameters a layout has are all given -/
structure Explicit (f : CfgFile) : Prop where
  alg : f.name = nmHashId ∨ f.name = nmHashed → (mget f.strs kAlg).isSome = true
  size : f.name = nmHashId ∨ f.name = nmHashed ∨ f.name = nmTupleOmit → (mget f.ints kTupleSize).isSome = true
  number : f.name = nmHashId ∨ f.name = nmHashed ∨ f.name = nmTupleOmit → (mget f.ints kNumber).isSome = true
  pad : f.name = nmTupleOmit → (mget f.strs kPad).isSome = true

theorem newTupleCfg_valid {s n : Int} {b : Bool} (h1 : s ≤ 32) (h2 : n ≤ 32) (h3 : s = 0 ↔ n = 0) :
    newTupleCfg ⟨s, n, b⟩ = ⟨s, n, b⟩ := by
  unfold newTupleCfg
  simp only [show ¬ n > 32 by omega, show ¬ s > 32 by omega, if_false]
  by_cases h : s = 0
  · rw [if_pos (Or.inl h), h, h3.1 h]
  · rw [if_neg (by rw [not_or]; exact ⟨h, fun h' => h (h3.2 h')⟩)]

/-- **C112**, for files that give every parameter.  Missing: parameters left out, see below. -/
theorem C112_catalogue_partial {hashes : Str → Option (Str → Str)} {f : CfgFile} {l : Layout} (hf : CatFile hashes f)
    (hx : Explicit f) (hl : catLayout f = some l) : loadLayout hashes f = .ok l := by
  have gi : ∀ {k : Str} {d : Int}, (mget f.ints k).isSome = true → (mget f.ints k).getD d = f.int k := by
    intro k d h
    obtain ⟨v, hv⟩ := Option.isSome_iff_exists.1 h
    unfold CfgFile.int; rw [hv]; rfl
  have gs : ∀ {k d : Str}, (mget f.strs k).isSome = true → (mget f.strs k).getD d = f.str k := by
    intro k d h
    obtain ⟨v, hv⟩ := Option.isSome_iff_exists.1 h
    unfold CfgFile.str; rw [hv]; rfl
  have nh : ∀ {a : Str} {l : Layout}, (hashes a).isSome = true → needHash hashes a l = .ok l := by
    intro a l h
    obtain ⟨v, hv⟩ := Option.isSome_iff_exists.1 h
    unfold needHash; rw [hv]
  have bd : ∀ {k : Str}, (∀ n, mget f.ints k = some n → 0 ≤ n ∧ n ≤ 32) → (mget f.ints k).isSome = true → f.int k ≤ 32 := by
    intro k h1 h2
    obtain ⟨v, hv⟩ := Option.isSome_iff_exists.1 h2
    unfold CfgFile.int; rw [hv]; exact (h1 v hv).2
  unfold catLayout at hl
  simp only at hl
  unfold loadLayout
  split at hl
  · rename_i h; cases hl; rw [if_pos h]
  · rename_i h0
    rw [if_neg h0]
    split at hl
    · rename_i h; cases hl
      rw [if_neg (by rw [h]; decide), if_pos h]
      have h1 := hx.size (Or.inl h)
      have h2 := hx.number (Or.inl h)
      have h3 := hx.alg (Or.inl h)
      have hb := hf.both
      rw [gi h1, gi h2] at hb
      have hk := hf.known
      rw [gs h3] at hk
      rw [gi h1, gi h2, gs h3, nh hk, newTupleCfg_valid (bd hf.size h1) (bd hf.number h2) hb]
    · rename_i h1
      split at hl
      · rename_i h; cases hl
        rw [if_neg (by rw [h]; decide), if_neg h1, if_pos h]
        have h1 := hx.size (Or.inr (Or.inl h))
        have h2 := hx.number (Or.inr (Or.inl h))
        have h3 := hx.alg (Or.inr h)
        have hb := hf.both
        rw [gi h1, gi h2] at hb
        have hk := hf.known
        rw [gs h3] at hk
        rw [gi h1, gi h2, gs h3, nh hk, newTupleCfg_valid (bd hf.size h1) (bd hf.number h2) hb]
        rfl
      · rename_i h2
        split at hl
        · rename_i h
          rw [if_neg (by rw [h]; decide), if_neg h1, if_neg h2, if_pos h]
          obtain ⟨d, hd, rfl⟩ := Option.map_eq_some_iff.1 hl
          unfold CfgFile.str; rw [hd]; rfl
        · rename_i h3
          split at hl
          · rename_i h
            rw [if_neg (by rw [h]; decide), if_neg h1, if_neg h2, if_neg h3, if_pos h]
            obtain ⟨d, hd, rfl⟩ := Option.map_eq_some_iff.1 hl
            rw [gi (hx.size (Or.inr (Or.inr h))), gi (hx.number (Or.inr (Or.inr h))), gs (hx.pad h)]
            have : f.str kDelim = d := by unfold CfgFile.str; rw [hd]; rfl
            rw [this]
            rfl
          · cases hl

/-- a file that gives every parameter -/
def exCat : CfgFile := ⟨nmTupleOmit, [(kTupleSize, 4), (kNumber, 2)], [(kDelim, ":".toList), (kPad, "right".toList)], []⟩

example : CatFile (fun _ => some (fun _ => [])) exCat ∧ Explicit exCat ∧
    catLayout exCat = some (.tupleOmit ⟨":".toList, 4, 2, "right".toList, false⟩) :=
  ⟨by constructor <;> decide, by constructor <;> decide, by decide⟩

/-- **Defaults are missing**: a storage root whose layout is announced with the name only — the hashed layouts then have
their defaults — cannot be opened. -/
theorem C112_full_fails_hashed {hashes : Str → Option (Str → Str)} (h0 : hashes [] = none) {f : CfgFile}
    (hn : f.name = nmHashId ∨ f.name = nmHashed) (hs : mget f.strs kAlg = none) :
    loadLayout hashes f = .error (.error "hash not found") := by
  have ha : f.str kAlg = [] := by unfold CfgFile.str; rw [hs]; rfl
  unfold loadLayout
  rw [ha]
  unfold needHash
  rw [h0]
  rcases hn with h | h
  · rw [h, if_neg (by decide), if_neg (by decide), if_pos rfl]
  · rw [h, if_neg (by decide), if_neg (by decide), if_neg (by decide), if_pos rfl]

/-- **Defaults are missing**: with the default tuple size the n-tuple-omit-prefix layout is read, and every id makes the
program crash. -/
theorem C112_full_fails_tuples {hashes : Str → Option (Str → Str)} {f : CfgFile} (hn : f.name = nmTupleOmit)
    (hs : mget f.ints kTupleSize = none) :
    ∃ l, loadLayout hashes f = .ok l ∧ ∀ id, layoutPath hashes l id = .error (.panic "integer divide by zero") := by
  refine ⟨.tupleOmit ⟨f.str kDelim, f.int kTupleSize, f.int kNumber, f.str kPad, f.bool kReverse⟩, ?_, ?_⟩
  · unfold loadLayout
    rw [hn, if_neg (by decide), if_neg (by decide), if_neg (by decide), if_neg (by decide), if_neg (by decide), if_pos rfl]
  · intro id
    have : f.int kTupleSize = 0 := by unfold CfgFile.int; rw [hs]; rfl
    rw [this]
    simp only [layoutPath, layout0007, if_true]

theorem C112_full_fails : ¬ C112_full := by
  intro h
  have := h (fun a => if a = [] then none else some (fun _ => [])) ⟨nmHashed, [], [], []⟩
    (.hashed "sha256".toList ⟨3, 3, false⟩) (by constructor <;> decide) (by decide)
  rw [C112_full_fails_hashed rfl (Or.inr rfl) rfl] at this
  cases this

end Gocfl
