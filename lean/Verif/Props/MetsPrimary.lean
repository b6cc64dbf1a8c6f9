import Verif.Props.MetsEx

/-!
# C123: the primary descriptive metadata

The configuration of the METS extension names a file as `type:area:name` or `type:name`; the document describes it with its
type.
-/

namespace Gocfl

/-- The setting `s` names the file at `q` with type `t`: in an area, in the area of contents, or where there are no areas. -/
inductive NamesFile (areas : Option Areas) : Str → Str → Str → Prop
  | area {as : Areas} {t A n : Str} {e : AreaEntry} (ha : areas = some as) (hk : (mkeys as).Nodup) (he : (A, e) ∈ as)
      (ht : ':' ∉ t) (hA : ':' ∉ A) (hn : ':' ∉ n) (hp : CleanRel e.path) (hc : CleanRel n) :
      NamesFile areas (t ++ ':' :: (A ++ ':' :: n)) t (e.path ++ '/' :: n)
  | content {as : Areas} {t n : Str} {e : AreaEntry} (ha : areas = some as) (hk : (mkeys as).Nodup)
      (he : ("content".toList, e) ∈ as) (ht : ':' ∉ t) (hn : ':' ∉ n) (hp : CleanRel e.path) (hc : CleanRel n) :
      NamesFile areas (t ++ ':' :: n) t (e.path ++ '/' :: n)
  | plain {t n : Str} (ha : areas = none ∨ areas = some []) (ht : ':' ∉ t) (hn : ':' ∉ n) (hc : CleanRel n) :
      NamesFile areas (t ++ ':' :: n) t n

/-- the section is of type `t`, or of type OTHER with that name -/
structure MdSec.DescribedAs (s : MdSec) (t : Str) : Prop where
  known : toUpper t ∈ metsMdTypes → s.mdType = toUpper t
  other : toUpper t ∉ metsMdTypes → t ≠ [] → s.mdType = "OTHER".toList ∧ s.otherType = toUpper t

/-- the section says nothing of the type -/
def MdSec.Untyped (s : MdSec) : Prop := s.mdType = "OTHER".toList ∧ s.otherType = "UNKNOWN".toList

/-- The document describes the file at `q`, and no other file, with the type `t`. -/
def Describes (inv : Inv) (md : MetsDoc) (t q : Str) : Prop :=
  ∃ d, HasFile inv inv.head q d ∧ (∃ s ∈ md.dmd, s.loc = ⟨false, q⟩ ∧ s.checksum = d ∧ s.DescribedAs t) ∧
    ∀ s ∈ md.dmd, s.loc.internal = false → s.loc.href ≠ q → s.Untyped

/-- **C123, in full.** -/
def C123_full : Prop :=
  ∀ (V : Type) (inv : Inv) (n : Nat) (x : MetsEnv V) (exts : List (Str × Res (AMap Str V))) (m : ObjMeta V) (md : MetsDoc)
    (pd : PremisDoc) (t q : Str), GoodInv inv n → objMetadata inv exts = .ok m → metsDocs x m = .ok (some (md, pd)) →
    NamesFile x.areas x.cfg.primary t q → Describes inv md t q

theorem NamesFile.name {areas : Option Areas} {s t q : Str} (h : NamesFile areas s t q) :
    s ≠ [] ∧ primaryName areas s = .ok (t, q) := by
  cases h with
  | @area as _ A n e ha hk he ht hA hn hp hc =>
    refine ⟨by simp, ?_⟩
    subst ha
    unfold primaryName
    rw [splitOn_append, splitOn_noSep ht, splitOn_append, splitOn_noSep hA, splitOn_noSep hn]
    simp only [List.cons_append, List.nil_append, Option.getD_some, mget_of_mem hk he, pathJoin_two hp hc]
  | @content as _ n e ha hk he ht hn hp hc =>
    refine ⟨by simp, ?_⟩
    subst ha
    have hne : as ≠ [] := fun h => by rw [h] at he; cases he
    unfold primaryName
    rw [splitOn_append, splitOn_noSep ht, splitOn_noSep hn]
    simp only [List.cons_append, List.nil_append, Option.getD_some, if_neg hne, mget_of_mem hk he, pathJoin_two hp hc]
  | @plain _ n ha ht hn hc =>
    refine ⟨by simp, ?_⟩
    have hne : areas.getD [] = [] := by rcases ha with rfl | rfl <;> rfl
    unfold primaryName
    rw [splitOn_append, splitOn_noSep ht, splitOn_noSep hn]
    simp only [List.cons_append, List.nil_append, if_pos hne, hc.clean]

theorem describedAs_new {t : Str} (id : Str) (loc : Loc) (cs alg : Str) :
    (newMdSec id loc (primaryType t).1 (primaryType t).2 cs alg).DescribedAs t := by
  constructor
  · intro h
    unfold newMdSec primaryType
    rw [if_pos h]
    have hne : toUpper t ≠ [] := by
      intro h0
      rw [h0] at h
      exact absurd h (by decide)
    simp only [if_neg hne]
  · intro h ht
    unfold newMdSec primaryType
    rw [if_neg h]
    have hne : toUpper t ≠ [] := by
      unfold toUpper
      cases t with
      | nil => exact absurd rfl ht
      | cons c t => simp
    have h1 : "OTHER".toList ≠ [] := by decide
    simp only [if_neg h1, hne, and_false, if_false, and_self]

theorem untyped_new (id : Str) (loc : Loc) (cs alg : Str) : (newMdSec id loc [] [] cs alg).Untyped := ⟨rfl, rfl⟩

/-- **C123, the type**: the file that is named exists; the sections with its digest carry the type, and there are some, for
a file with that content; all others carry none. -/
theorem C123_typed {V : Type} {inv : Inv} {n : Nat} (hg : GoodInv inv n) {x : MetsEnv V}
    {exts : List (Str × Res (AMap Str V))} {m : ObjMeta V} (h : objMetadata inv exts = .ok m) {md : MetsDoc} {pd : PremisDoc}
    (hd : metsDocs x m = .ok (some (md, pd))) {t q : Str} (hq : NamesFile x.areas x.cfg.primary t q) :
    ∃ d, HasFile inv inv.head q d ∧
      (∀ s ∈ md.dmd, s.checksum = d → s.DescribedAs t) ∧
      (∃ s ∈ md.dmd, s.checksum = d ∧ ∃ q', HasFile inv inv.head q' d ∧ s.loc = ⟨false, q'⟩) ∧
      ∀ s ∈ md.dmd, s.checksum ≠ d → s.Untyped := by
  obtain ⟨hne, hname⟩ := hq.name
  obtain ⟨mn, pn, st, _, _, _, hst, rfl, rfl⟩ := metsDocs_ok hd
  unfold metsPrimary at hst
  rw [if_neg hne] at hst
  obtain ⟨tn, htn, hst⟩ := res_bind_eq_ok.1 hst
  rw [hname] at htn
  cases htn
  cases hfp : findPrimary m q with
  | none => simp only [hfp] at hst; cases hst
  | some r =>
    obtain ⟨cs, f⟩ := r
    simp only [hfp] at hst
    cases hst
    unfold findPrimary at hfp
    have hmem := List.mem_of_find?_eq_some hfp
    have hin := List.find?_some hfp
    rw [decide_eq_true_eq] at hin
    have hent : ∀ q ∈ (mget f.versionName m.head).getD [], HasFile inv inv.head q cs := by
      intro q hq
      have : (⟨cs, f, q⟩ : MEntry V) ∈ metsEntries m := by
        unfold metsEntries
        exact List.mem_flatMap.2 ⟨(cs, f), hmem, List.mem_map.2 ⟨q, hq, rfl⟩⟩
      exact (entry_hasFile hg h this).1
    have hcoll : ∀ s ∈ (metsCollected x m [mn.ext, pn.ext]).dmd, s.Untyped := by
      intro s hs
      obtain ⟨e, he, hs | hs⟩ := mem_collected_dmd.1 hs
      · unfold intDmd at hs
        rw [List.mem_map] at hs
        obtain ⟨p, _, rfl⟩ := hs
        exact untyped_new _ _ _ _
      · unfold extDmd at hs
        split at hs
        · rw [List.mem_singleton] at hs
          subst hs
          exact untyped_new _ _ _ _
        · cases hs
    refine ⟨cs, hent q hin, ?_, ?_, ?_⟩
    · intro s hs hcs
      have hs := List.mem_append.1 hs
      rcases hs with hs | hs
      · have := (List.mem_filter.1 hs).2
        simp [hcs] at this
      · rcases List.mem_append.1 hs with hs | hs
        · obtain ⟨p, _, rfl⟩ := List.mem_map.1 hs
          exact describedAs_new _ _ _ _
        · obtain ⟨p, _, rfl⟩ := List.mem_map.1 hs
          exact describedAs_new _ _ _ _
    · cases hps : (mget f.versionName m.head).getD [] with
      | nil => rw [hps] at hin; cases hin
      | cons a l =>
        refine ⟨newMdSec ("dmdSec-ext-".toList ++ (x.slug m.id ++ '-' :: m.head)) ⟨false, a⟩ (primaryType t).1
          (primaryType t).2 cs m.alg, List.mem_append_right _ (List.mem_append_right _ (List.mem_map.2 ⟨a, ?_, rfl⟩)), rfl,
          a, hent a (by rw [hps]; simp), rfl⟩
        simp
    · intro s hs hcs
      have hs := List.mem_append.1 hs
      rcases hs with hs | hs
      · exact hcoll s (List.mem_filter.1 hs).1
      · rcases List.mem_append.1 hs with hs | hs
        · obtain ⟨p, _, rfl⟩ := List.mem_map.1 hs
          exact absurd rfl hcs
        · obtain ⟨p, _, rfl⟩ := List.mem_map.1 hs
          exact absurd rfl hcs

/-- **C123.**  Where no other file has its content, the file named is described with the type, and no other. -/
theorem C123_described_partial {V : Type} {inv : Inv} {n : Nat} (hg : GoodInv inv n) {x : MetsEnv V}
    {exts : List (Str × Res (AMap Str V))} {m : ObjMeta V} (h : objMetadata inv exts = .ok m) {md : MetsDoc} {pd : PremisDoc}
    (hd : metsDocs x m = .ok (some (md, pd))) {t q : Str} (hq : NamesFile x.areas x.cfg.primary t q)
    (halone : ∀ d q', HasFile inv inv.head q d → HasFile inv inv.head q' d → q' = q) : Describes inv md t q := by
  obtain ⟨d, hf, h1, ⟨s, hs, hc, q', hf', hl⟩, h3⟩ := C123_typed hg h hd hq
  have := halone d q' hf hf'
  subst this
  refine ⟨d, hf, ⟨s, hs, hl, hc, h1 s hs hc⟩, ?_⟩
  intro s' hs' hi hne
  refine h3 s' hs' ?_
  intro hcs
  have hL := (listed_exists hg h hd).1 s'.loc.href d (Or.inr ⟨s', hs', hcs, by rw [← hi]⟩)
  exact hne (halone d _ hf hL)

set_option maxRecDepth 20000

/-- C123 fails: where another file has the same content, that one may be described instead. -/
def mxAlias : Inv := mxInv [("d1".toList, ["v1/content/meta/a".toList])]
  [[("d1".toList, ["meta/a".toList, "meta/m".toList])]]

theorem mxPrimary_names : NamesFile (some mxAreas) mxPrimary "mods".toList "meta/m".toList :=
  NamesFile.area (as := mxAreas) (t := "mods".toList) (A := "metadata".toList) (n := "m".toList) (e := ⟨"meta".toList, []⟩)
    rfl (by decide) (by decide) (by decide) (by decide) (by decide)
    ⟨["meta".toList], by decide, by unfold ValidComp; decide, rfl⟩ ⟨["m".toList], by decide, by unfold ValidComp; decide, rfl⟩

theorem C123_full_fails : ¬ C123_full := by
  intro hfull
  have hg : GoodInv mxAlias 1 := goodInv_of (by decide) (by decide) (by decide) (by decide) (by decide)
  obtain ⟨m, md, pd, hm, hd, hx⟩ := mxDocs_some (x := mxX) (inv := mxAlias) (exts := []) (by decide)
  obtain ⟨d, _, ⟨s, hs, hl, _⟩, _⟩ := hfull _ _ _ _ _ _ _ _ _ _ hg hm hd mxPrimary_names
  have h1 : (mxDocs mxX mxAlias []).map (fun r => decide (∀ s ∈ r.1.dmd, s.loc ≠ ⟨false, "meta/m".toList⟩)) = some true := by
    decide
  rw [hx] at h1
  exact of_decide_eq_true (Option.some.inj h1) s hs hl

/-- The hypotheses are met: the metadata of `mxGood`. -/
example : ∃ m md pd, objMetadata mxGood [] = .ok m ∧ metsDocs mxX m = .ok (some (md, pd)) ∧
    Describes mxGood md "mods".toList "meta/m".toList := by
  obtain ⟨m, md, pd, hm, hd, hx⟩ := mxDocs_some (x := mxX) (inv := mxGood) (exts := []) (by decide)
  refine ⟨m, md, pd, hm, hd, C123_described_partial mxGood_good hm hd mxPrimary_names ?_⟩
  intro d q' h1 h2
  have h1 := (mem_filesAt mxGood_good).1 h1
  have h2 := (mem_filesAt mxGood_good).1 h2
  have : ∀ a ∈ filesAt mxGood mxGood.head, ∀ b ∈ filesAt mxGood mxGood.head, a.2 = b.2 → a.1 = "meta/m".toList →
      b.1 = "meta/m".toList := by decide
  exact this _ h1 _ h2 rfl rfl

end Gocfl
