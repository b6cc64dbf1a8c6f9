import Verif.Props.DisplayReport
import Verif.Props.Crash

/-!
# C130, C131: the numbers and the metadata in the report of the web display
-/

namespace Gocfl

/-! ## C130 -/

/-- the indexer's result for a content -/
def FileMeta.indexed (f : FileMeta RepVal) (r : IdxRes) : Prop := mget f.ext "NNNN-indexer".toList = some (.index r)

/-- the indexer's result for a content, as an option -/
def FileMeta.idx? (f : FileMeta RepVal) : Option IdxRes :=
  match mget f.ext "NNNN-indexer".toList with
  | some (.index r) => some r
  | _ => none

/-- a size greater than zero was recorded for the content, by the indexer or by the extension filesystem -/
def FileMeta.sized (f : FileMeta RepVal) : Bool :=
  (match f.idx? with
   | some r => decide (0 < r.size)
   | none => false) ||
  (match mget f.ext "NNNN-filesystem".toList with
   | some (.fsLines ls) => ls.any (fun v => v.2.any (fun l => decide (0 < l.2)))
   | _ => false)

/-- The numbers are those of the object: content files, contents of no known size, and the contents of each type. -/
structure RightNumbers (inv : Inv) (m : ObjMeta RepVal) (s : RepNumbers) : Prop where
  files : s.numFiles = (inv.manifest.map (fun e => e.2.length)).sum
  size : s.size = ((m.files.filterMap (fun e => e.2.idx?)).map (fun r => r.size)).sum
  noSize : s.noSize = m.files.countP (fun e => !e.2.sized)
  mimes : ∀ t k, mget s.mimes t = some k ↔
    0 < k ∧ t ≠ [] ∧ k = (m.files.filterMap (fun e => e.2.idx?)).countP (fun r => decide (r.mime = t))
  pronoms : ∀ t k, mget s.pronoms t = some k ↔
    0 < k ∧ t ≠ [] ∧ k = (m.files.filterMap (fun e => e.2.idx?)).countP (fun r => decide (r.pronom = t))

/-- **C130, in full**: for all objects and all that extensions report. -/
def C130_full : Prop :=
  ∀ (inv : Inv) (exts : List (Str × Res (AMap Str RepVal))) (m : ObjMeta RepVal) (fs : List (FileMeta RepVal)),
    objMetadata inv exts = .ok m → fs.Perm (m.files.map (fun e => e.2)) → RightNumbers inv m (reportNumbers fs)

theorem countFile_idx (s : RepNumbers) (f : FileMeta RepVal) : countFile s f =
    match f.idx? with
    | some r => { numFiles := s.numFiles + f.internal.length, size := s.size + r.size,
                  noSize := if 0 < r.size then s.noSize else s.noSize + 1,
                  mimes := countType s.mimes r.mime, pronoms := countType s.pronoms r.pronom }
    | none => { s with numFiles := s.numFiles + f.internal.length, noSize := s.noSize + 1 } := by
  unfold countFile FileMeta.idx?
  cases mget f.ext "NNNN-indexer".toList with
  | none => rfl
  | some v => cases v <;> rfl

/-- a counter, zero for what is not there -/
theorem countType_get (a : AMap Str Nat) (x t : Str) (k : Nat) :
    mget (countType a x) t = some k ↔
      (if x = t ∧ x ≠ [] then k = (mget a t).getD 0 + 1 else mget a t = some k) := by
  unfold countType
  by_cases hx : x = []
  · rw [if_pos hx, if_neg (by tauto)]
  · rw [if_neg hx]
    by_cases ht : x = t
    · subst ht
      rw [mget_mset_self, if_pos ⟨rfl, hx⟩, Option.some.injEq]
      exact eq_comm
    · rw [mget_mset_ne _ ht, if_neg (by tauto)]

/-- how often a type was counted -/
theorem numbers_spec (fs : List (FileMeta RepVal)) :
    (reportNumbers fs).numFiles = (fs.map (fun f => f.internal.length)).sum ∧
    (reportNumbers fs).size = ((fs.filterMap (fun f => f.idx?)).map (fun r => r.size)).sum ∧
    (reportNumbers fs).noSize = fs.countP (fun f => !(match f.idx? with | some r => decide (0 < r.size) | none => false)) ∧
    (∀ t k, mget (reportNumbers fs).mimes t = some k ↔
      0 < k ∧ t ≠ [] ∧ k = (fs.filterMap (fun f => f.idx?)).countP (fun r => decide (r.mime = t))) ∧
    (∀ t k, mget (reportNumbers fs).pronoms t = some k ↔
      0 < k ∧ t ≠ [] ∧ k = (fs.filterMap (fun f => f.idx?)).countP (fun r => decide (r.pronom = t))) := by
  have hcount : ∀ (a : AMap Str Nat) (c : Str → Nat) (x : Str), (∀ t k, mget a t = some k ↔ 0 < k ∧ t ≠ [] ∧ k = c t) →
      ∀ t k, mget (countType a x) t = some k ↔ 0 < k ∧ t ≠ [] ∧ k = c t + (if x = t then 1 else 0) := by
    intro a c x ha t k
    rw [countType_get a x t k]
    by_cases h : x = t ∧ x ≠ []
    · obtain ⟨rfl, hx⟩ := h
      rw [if_pos ⟨rfl, hx⟩, if_pos rfl]
      have : (mget a x).getD 0 = c x := by
        cases hm : mget a x with
        | none =>
          by_contra hne
          have := (ha x (c x)).2 ⟨Nat.pos_of_ne_zero (fun h0 => hne (by rw [h0]; rfl)), hx, rfl⟩
          rw [hm] at this
          cases this
        | some k' => exact ((ha x k').1 hm).2.2
      rw [this]
      constructor
      · rintro rfl; exact ⟨by omega, hx, rfl⟩
      · rintro ⟨_, _, h⟩; exact h
    · rw [if_neg h, ha]
      by_cases hx : x = t
      · subst hx
        have : x = [] := by tauto
        constructor
        · rintro ⟨_, h2, _⟩; exact absurd this h2
        · rintro ⟨_, h2, _⟩; exact absurd this h2
      · rw [if_neg hx, Nat.add_zero]
  have key : ∀ (fs : List (FileMeta RepVal)) (s : RepNumbers) (cm cp : Str → Nat),
      (∀ t k, mget s.mimes t = some k ↔ 0 < k ∧ t ≠ [] ∧ k = cm t) →
      (∀ t k, mget s.pronoms t = some k ↔ 0 < k ∧ t ≠ [] ∧ k = cp t) →
      (fs.foldl countFile s).numFiles = s.numFiles + (fs.map (fun f => f.internal.length)).sum ∧
      (fs.foldl countFile s).size = s.size + ((fs.filterMap (fun f => f.idx?)).map (fun r => r.size)).sum ∧
      (fs.foldl countFile s).noSize =
        s.noSize + fs.countP (fun f => !(match f.idx? with | some r => decide (0 < r.size) | none => false)) ∧
      (∀ t k, mget (fs.foldl countFile s).mimes t = some k ↔
        0 < k ∧ t ≠ [] ∧ k = cm t + (fs.filterMap (fun f => f.idx?)).countP (fun r => decide (r.mime = t))) ∧
      (∀ t k, mget (fs.foldl countFile s).pronoms t = some k ↔
        0 < k ∧ t ≠ [] ∧ k = cp t + (fs.filterMap (fun f => f.idx?)).countP (fun r => decide (r.pronom = t))) := by
    intro fs
    induction fs with
    | nil => intro s cm cp hm hp; exact ⟨rfl, rfl, rfl, hm, hp⟩
    | cons f fs ih =>
      intro s cm cp hm hp
      rw [List.foldl_cons, countFile_idx]
      cases hi : f.idx? with
      | none =>
        obtain ⟨h1, h2, h3, h4, h5⟩ := ih { s with numFiles := s.numFiles + f.internal.length, noSize := s.noSize + 1 } cm cp hm hp
        refine ⟨?_, ?_, ?_, ?_, ?_⟩
        · rw [h1, List.map_cons, List.sum_cons]; simp only; omega
        · rw [h2, List.filterMap_cons_none hi]
        · rw [h3, List.countP_cons, hi]; simp only [Bool.not_false, if_pos]; omega
        · rw [List.filterMap_cons_none hi]; exact h4
        · rw [List.filterMap_cons_none hi]; exact h5
      | some r =>
        obtain ⟨h1, h2, h3, h4, h5⟩ := ih ⟨s.numFiles + f.internal.length, s.size + r.size,
                  if 0 < r.size then s.noSize else s.noSize + 1, countType s.mimes r.mime, countType s.pronoms r.pronom⟩ _ _
          (hcount _ _ r.mime hm) (hcount _ _ r.pronom hp)
        have hcons : (f :: fs).filterMap (fun f => f.idx?) = r :: fs.filterMap (fun f => f.idx?) := List.filterMap_cons_some hi
        refine ⟨?_, ?_, ?_, ?_, ?_⟩
        · rw [h1, List.map_cons, List.sum_cons]; simp only; omega
        · rw [h2, hcons, List.map_cons, List.sum_cons]; simp only; omega
        · rw [h3, List.countP_cons, hi]
          by_cases h0 : 0 < r.size
          · simp [h0]
          · simp [h0]; omega
        · intro t k
          rw [h4, hcons, List.countP_cons]
          simp only [decide_eq_true_eq]
          constructor <;> (rintro ⟨a, b, c⟩; exact ⟨a, b, by omega⟩)
        · intro t k
          rw [h5, hcons, List.countP_cons]
          simp only [decide_eq_true_eq]
          constructor <;> (rintro ⟨a, b, c⟩; exact ⟨a, b, by omega⟩)
  have := key fs ⟨0, 0, 0, [], []⟩ (fun _ => 0) (fun _ => 0) (by
    intro t k
    constructor
    · intro h; cases h
    · rintro ⟨h1, _, h2⟩; omega) (by
    intro t k
    constructor
    · intro h; cases h
    · rintro ⟨h1, _, h2⟩; omega)
  simpa [reportNumbers] using this

/-- **C130.**  For objects for which the extension filesystem has recorded no size that the indexer has not. -/
theorem C130_numbers_partial {inv : Inv} {exts : List (Str × Res (AMap Str RepVal))} {m : ObjMeta RepVal}
    (h : objMetadata inv exts = .ok m) {fs : List (FileMeta RepVal)} (hp : fs.Perm (m.files.map (fun e => e.2)))
    (hs : ∀ d f, (d, f) ∈ m.files → f.sized = true → ∃ r, f.indexed r ∧ 0 < r.size) :
    RightNumbers inv m (reportNumbers fs) := by
  obtain ⟨h1, h2, h3, h4, h5⟩ := numbers_spec fs
  have hf : (fs.filterMap (fun f => f.idx?)).Perm (m.files.filterMap (fun e => e.2.idx?)) := by
    have := hp.filterMap (fun f => f.idx?)
    rwa [List.filterMap_map] at this
  refine ⟨?_, ?_, ?_, ?_, ?_⟩
  · rw [h1, (hp.map _).sum_nat]
    obtain ⟨em, _, rfl⟩ := objMetadata_ok h
    rw [List.map_map]
    simp only
    generalize inv.manifest = man
    induction man with
    | nil => rfl
    | cons e man ih =>
      rw [List.filterMap_cons]
      by_cases he : e.2 = []
      · rw [if_pos he]
        simp only [List.map_cons, List.sum_cons, he, List.length_nil, Nat.zero_add]
        exact ih
      · rw [if_neg he]
        simp only [List.map_cons, List.sum_cons]
        rw [ih]
        rfl
  · rw [h2, (hf.map _).sum_nat]
  · rw [h3, hp.countP_eq, List.countP_map]
    refine List.countP_congr ?_
    rintro ⟨d, f⟩ he
    simp only [Function.comp]
    have hd := hs d f he
    unfold FileMeta.sized at hd ⊢
    unfold FileMeta.indexed at hd
    cases hi : f.idx? with
    | some r =>
      by_cases h0 : 0 < r.size
      · simp [h0]
      · simp only [hi, h0, decide_false, Bool.false_or] at hd ⊢
        by_cases hx : (match mget f.ext "NNNN-filesystem".toList with
          | some (.fsLines ls) => ls.any (fun v => v.2.any (fun l => decide (0 < l.2)))
          | _ => false) = true
        · obtain ⟨r', hr', h0'⟩ := hd hx
          unfold FileMeta.idx? at hi
          rw [hr'] at hi
          cases hi
          exact absurd h0' h0
        · rw [Bool.not_eq_true] at hx
          rw [hx]
    | none =>
      simp only [hi, Bool.false_or] at hd ⊢
      by_cases hx : (match mget f.ext "NNNN-filesystem".toList with
          | some (.fsLines ls) => ls.any (fun v => v.2.any (fun l => decide (0 < l.2)))
          | _ => false) = true
      · obtain ⟨r', hr', h0'⟩ := hd hx
        unfold FileMeta.idx? at hi
        rw [hr'] at hi
        cases hi
      · rw [Bool.not_eq_true] at hx
        rw [hx]
  · intro t k
    rw [h4, hf.countP_eq]
  · intro t k
    rw [h5, hf.countP_eq]

/-- what the extensions report for the object `repInv`: the indexer about both contents -/
def repExts : List (Str × Res (AMap Str RepVal)) :=
  [("NNNN-indexer".toList, .ok [("d1".toList, .index ⟨5, "text/plain".toList, []⟩),
                                ("d2".toList, .index ⟨7, "text/plain".toList, "fmt/1".toList⟩)]),
   ("NNNN-filesystem".toList, .ok [("d1".toList, .fsLines [("v1".toList, [("a/b/c".toList, 5)])])])]

def numMeta (inv : Inv) (em : AMap Str (AMap Str RepVal)) : ObjMeta RepVal :=
  { id := inv.id, alg := inv.digestAlg, head := inv.head
    versions := inv.versions.map (fun e => (e.1, versionMeta e.2))
    files := inv.manifest.filterMap (fun e => if e.2 = [] then none else some (e.1, fileMeta inv em e.1 e.2))
    ext := mget em [] }

def repEm : AMap Str (AMap Str RepVal) :=
  [("d1".toList, [("NNNN-indexer".toList, .index ⟨5, "text/plain".toList, []⟩),
                  ("NNNN-filesystem".toList, .fsLines [("v1".toList, [("a/b/c".toList, 5)])])]),
   ("d2".toList, [("NNNN-indexer".toList, .index ⟨7, "text/plain".toList, "fmt/1".toList⟩)])]

theorem repExts_meta : objMetadata repInv repExts = .ok (numMeta repInv repEm) := by rfl

example : RightNumbers repInv (numMeta repInv repEm) (reportNumbers ((numMeta repInv repEm).files.map (fun e => e.2))) := by
  refine C130_numbers_partial repExts_meta (List.Perm.refl _) ?_
  intro d f h _
  have h : (d, f) ∈ [("d1".toList, fileMeta repInv repEm "d1".toList ["v1/content/a/b/c".toList]),
    ("d2".toList, fileMeta repInv repEm "d2".toList ["v1/content/x".toList])] := h
  rcases List.mem_cons.1 h with h | h
  · cases h
    exact ⟨_, rfl, by decide⟩
  · rw [List.mem_singleton] at h
    cases h
    exact ⟨_, rfl, by decide⟩

/-- **C130 does not hold in full**: the size recorded by the extension filesystem is not seen. -/
theorem C130_full_fails : ¬ C130_full := by
  intro h
  have := (h ockInv [("NNNN-filesystem".toList, .ok [("d1".toList, .fsLines [("v1".toList, [("a".toList, 5)])])])]
    (numMeta ockInv [("d1".toList, [("NNNN-filesystem".toList, .fsLines [("v1".toList, [("a".toList, 5)])])])])
    [fileMeta ockInv [("d1".toList, [("NNNN-filesystem".toList, .fsLines [("v1".toList, [("a".toList, 5)])])])] "d1".toList
      ["v1/content/a".toList]] rfl (List.Perm.refl _)).noSize
  revert this
  decide

/-! ## C131 -/

/-- The head of the object has the file, and its content is in the content folder of a version at the path. -/
def HeadInfo (inv : Inv) (ofs : FS) (q mp : Str) (b : Bytes) : Prop :=
  ∃ d v, HasFile inv inv.head q d ∧ v ∈ mkeys inv.versions ∧ inv.Lists d (v ++ '/' :: (inv.contentDir ++ '/' :: mp)) ∧
    mget ofs (v ++ '/' :: (inv.contentDir ++ '/' :: mp)) = some b

/-- **C131, in full**: for all objects, contents and orders. -/
def C131_full : Prop :=
  ∀ (inv : Inv) (n : Nat) (ofs : FS) (q mp : Str) (b : Bytes) (vs : List Str), GoodInv inv n → CleanRel mp →
    ValidComp inv.contentDir → vs.Perm (mkeys inv.versions) → HeadInfo inv ofs q mp b → b ≠ [] → reportInfo ofs mp vs = b

/-- the path is looked for where it is -/
theorem infoPath {inv : Inv} {n : Nat} (hg : GoodInv inv n) {v mp : Str} (hv : v ∈ mkeys inv.versions) (hm : CleanRel mp) :
    pathJoin [v, "content".toList, mp] = v ++ '/' :: ("content".toList ++ '/' :: mp) := by
  obtain ⟨k, _, _, rfl⟩ := hg.wf.1.mem_keys.1 hv
  have hvc := verName_valid inv.paddingLength k
  have h1 : CleanRel (verName inv.paddingLength (k : Int)) := ⟨[verName inv.paddingLength (k : Int)], by simp, (fun c hc => by
    rw [List.mem_singleton.1 hc]
    exact hvc), rfl⟩
  have h2 : CleanRel "content".toList := ⟨["content".toList], by simp, by
    intro c hc
    rw [List.mem_singleton.1 hc]
    unfold ValidComp
    decide, rfl⟩
  have h3 := h1.join (h2.join hm)
  generalize hx : verName inv.paddingLength (k : Int) = x at *
  cases x with
  | nil => exact absurd rfl hvc.1
  | cons c x => exact h3.clean

/-- **C131.**  For objects with the usual content folder, if only one metadata file was ever stored. -/
theorem C131_info_partial {inv : Inv} {n : Nat} {ofs : FS} {q mp : Str} {b : Bytes} {vs : List Str} (hg : GoodInv inv n)
    (hm : CleanRel mp) (hp : vs.Perm (mkeys inv.versions)) (h : HeadInfo inv ofs q mp b) (hb : b ≠ [])
    (hc : inv.contentDir = "content".toList)
    (hone : ∀ v ∈ mkeys inv.versions, ∀ b', mget ofs (v ++ '/' :: ("content".toList ++ '/' :: mp)) = some b' → b' = [] ∨ b' = b) :
    reportInfo ofs mp vs = b := by
  obtain ⟨d, v, _, hv, _, hget⟩ := h
  rw [hc] at hget
  unfold reportInfo
  have key : ∀ (vs : List Str) (acc : Bytes), (∀ v ∈ vs, v ∈ mkeys inv.versions) → (acc = b ∨ v ∈ vs) →
      vs.foldl (fun acc v => match mget ofs (pathJoin [v, "content".toList, mp]) with
        | some b => if b = [] then acc else b
        | none => acc) acc = b := by
    intro vs
    induction vs with
    | nil => rintro acc _ (h | h); exact h; cases h
    | cons u us ih =>
      intro acc hall hor
      rw [List.foldl_cons]
      refine ih _ (fun x hx => hall x (by simp [hx])) ?_
      rw [infoPath hg (hall u (by simp)) hm]
      have hu := hone u (hall u (by simp))
      cases hgu : mget ofs (u ++ '/' :: ("content".toList ++ '/' :: mp)) with
      | none =>
        rcases hor with h | h
        · exact Or.inl h
        · rcases List.mem_cons.1 h with h | h
          · rw [h] at hget
            rw [hgu] at hget
            cases hget
          · exact Or.inr h
      | some b' =>
        rcases hu b' hgu with h0 | h0
        · subst h0
          rcases hor with h | h
          · exact Or.inl h
          · rcases List.mem_cons.1 h with h | h
            · rw [h, hgu] at hget
              cases hget
              exact absurd rfl hb
            · exact Or.inr h
        · subst h0
          left
          simp only [if_neg hb]
  exact key vs [] (fun x hx => hp.mem_iff.1 hx) (Or.inr (hp.mem_iff.2 hv))

/-- an object with the metadata in its first version -/
def infoInv (cd : Str) : Inv :=
  { ockInv with
    contentDirectory := cd, head := "v2".toList
    manifest := [("d1".toList, ["v1/".toList ++ (if cd = [] then "content".toList else cd) ++ "/info.json".toList])]
    versions := [("v1".toList, ⟨"t".toList, "m".toList, "u".toList, "mailto:u@x".toList, [("d1".toList, ["info.json".toList])]⟩),
                 ("v2".toList, ⟨"t".toList, "m".toList, "u".toList, "mailto:u@x".toList, [("d1".toList, ["info.json".toList])]⟩)] }

/-- an object with metadata in both versions -/
def infoInv2 : Inv :=
  { infoInv [] with
    manifest := [("d1".toList, ["v1/content/info.json".toList]), ("d2".toList, ["v2/content/info.json".toList])]
    versions := [("v1".toList, ⟨"t".toList, "m".toList, "u".toList, "mailto:u@x".toList, [("d1".toList, ["info.json".toList])]⟩),
                 ("v2".toList, ⟨"t".toList, "m".toList, "u".toList, "mailto:u@x".toList, [("d2".toList, ["info.json".toList])]⟩)] }

theorem infoClean : CleanRel "info.json".toList := ⟨["info.json".toList], by simp, by
  intro c hc
  rw [List.mem_singleton.1 hc]
  unfold ValidComp
  decide, rfl⟩

example : reportInfo [("v1/content/info.json".toList, [1])] "info.json".toList ["v2".toList, "v1".toList] = [1] := by
  refine C131_info_partial (inv := infoInv []) (n := 2) (q := "info.json".toList)
    (goodInv_of (by decide) (by decide) (by decide) (by decide) (by decide)) infoClean (by decide)
    ⟨"d1".toList, "v1".toList, ⟨_, ["info.json".toList], List.mem_cons_of_mem _ List.mem_cons_self, List.mem_cons_self,
      List.mem_cons_self⟩, by decide, ⟨["v1/content/info.json".toList], List.mem_cons_self, by decide⟩, by decide⟩ (by decide) (by decide) ?_
  intro v hv b' h
  have hv : v ∈ ["v1".toList, "v2".toList] := hv
  rcases List.mem_cons.1 hv with rfl | hv
  · right
    have h0 : mget [("v1/content/info.json".toList, ([1] : Bytes))]
      ("v1".toList ++ '/' :: ("content".toList ++ '/' :: "info.json".toList)) = some [1] := by decide
    rw [h0] at h
    cases h
    rfl
  · rw [List.mem_singleton] at hv
    subst hv
    have h0 : mget [("v1/content/info.json".toList, ([1] : Bytes))]
      ("v2".toList ++ '/' :: ("content".toList ++ '/' :: "info.json".toList)) = none := by decide
    rw [h0] at h
    cases h

/-- **C131 does not hold in full**: of two metadata files the one read last is shown, in the order of a Go map. -/
theorem C131_full_fails : ¬ C131_full := by
  intro h
  have := h infoInv2 2 [("v1/content/info.json".toList, [1]), ("v2/content/info.json".toList, [2])] "info.json".toList
    "info.json".toList [2] ["v2".toList, "v1".toList] (goodInv_of (by decide) (by decide) (by decide) (by decide) (by decide)) infoClean
    (by unfold ValidComp; decide) (by decide)
    ⟨"d2".toList, "v2".toList, ⟨_, ["info.json".toList], List.mem_cons_of_mem _ List.mem_cons_self, List.mem_cons_self,
      List.mem_cons_self⟩, by decide, ⟨["v2/content/info.json".toList], List.mem_cons_of_mem _ List.mem_cons_self, by decide⟩, by decide⟩
    (by decide)
  revert this
  decide

/-- Also with another content folder: nothing is shown. -/
theorem C131_full_fails_folder : ¬ C131_full := by
  intro h
  have := h (infoInv "data".toList) 2 [("v1/data/info.json".toList, [1])] "info.json".toList
    "info.json".toList [1] ["v1".toList, "v2".toList] (goodInv_of (by decide) (by decide) (by decide) (by decide) (by decide)) infoClean
    (by unfold ValidComp; decide) (by decide)
    ⟨"d1".toList, "v1".toList, ⟨_, ["info.json".toList], List.mem_cons_of_mem _ List.mem_cons_self, List.mem_cons_self,
      List.mem_cons_self⟩, by decide, ⟨["v1/data/info.json".toList], List.mem_cons_self, by decide⟩, by decide⟩
    (by decide)
  revert this
  decide

end Gocfl
