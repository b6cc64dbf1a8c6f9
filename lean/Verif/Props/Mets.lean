import Verif.Model.Mets
import Verif.Props.Metadata
import Verif.Props.Migration
import Verif.Props.Filesystem

/-!
# C117, C118, C119, C120: the METS and PREMIS documents
-/

namespace Gocfl

/-! ## Grouping -/

theorem mget_mappend {α : Type} (m : AMap Str (List α)) (a k : Str) (x : α) :
    (mget (mappend m a x) k).getD [] = (mget m k).getD [] ++ (if a = k then [x] else []) := by
  unfold mappend
  by_cases h : a = k
  · subst h
    rw [mget_mset_self, if_pos rfl]; rfl
  · rw [mget_mset, if_neg h, if_neg h, List.append_nil]

/-- `m[a] = append(m[a], x)`, for several -/
def mappends {α : Type} (m : AMap Str (List α)) (xs : List (Str × α)) : AMap Str (List α) :=
  xs.foldl (fun a x => mappend a x.1 x.2) m

theorem mappends_append {α : Type} (m : AMap Str (List α)) (xs ys : List (Str × α)) :
    mappends m (xs ++ ys) = mappends (mappends m xs) ys := by
  unfold mappends; rw [List.foldl_append]

theorem mget_mappends {α : Type} (xs : List (Str × α)) (m : AMap Str (List α)) (k : Str) :
    (mget (mappends m xs) k).getD [] = (mget m k).getD [] ++ (xs.filter (fun x => decide (x.1 = k))).map (·.2) := by
  induction xs generalizing m with
  | nil => simp [mappends]
  | cons x xs ih =>
    have : mappends m (x :: xs) = mappends (mappend m x.1 x.2) xs := rfl
    rw [this, ih, mget_mappend]
    by_cases h : x.1 = k <;> simp [h]

theorem mappends_nodup {α : Type} (xs : List (Str × α)) {m : AMap Str (List α)} (h : (mkeys m).Nodup) :
    (mkeys (mappends m xs)).Nodup := by
  induction xs generalizing m with
  | nil => exact h
  | cons x xs ih => exact ih (mkeys_mset_nodup h _ _)

/-- what is in the groups -/
theorem mem_mappends {α : Type} {xs : List (Str × α)} {k : Str} {y : α} :
    (∃ l, (k, l) ∈ mappends [] xs ∧ y ∈ l) ↔ (k, y) ∈ xs := by
  have hn : (mkeys (mappends ([] : AMap Str (List α)) xs)).Nodup := mappends_nodup xs List.nodup_nil
  have hg := mget_mappends xs [] k
  constructor
  · rintro ⟨l, hl, hy⟩
    rw [mget_of_mem hn hl] at hg
    have hg : l = _ := hg
    rw [hg] at hy
    simp only [mget, Option.getD_none, List.nil_append, List.mem_map, List.mem_filter, decide_eq_true_eq] at hy
    obtain ⟨x, ⟨hx, hk⟩, hy⟩ := hy
    rw [← hk, ← hy]; exact hx
  · intro h
    cases hm : mget (mappends ([] : AMap Str (List α)) xs) k with
    | none =>
      rw [hm] at hg
      have : y ∈ (xs.filter (fun x => decide (x.1 = k))).map (·.2) :=
        List.mem_map.2 ⟨(k, y), List.mem_filter.2 ⟨h, by simp⟩, rfl⟩
      simp only [Option.getD_none, mget, List.nil_append] at hg
      rw [← hg] at this; cases this
    | some l =>
      refine ⟨l, mem_of_mget hm, ?_⟩
      rw [hm] at hg
      have hg : l = _ := hg
      rw [hg]
      simp only [mget, Option.getD_none, List.nil_append]
      exact List.mem_map.2 ⟨(k, y), List.mem_filter.2 ⟨h, by simp⟩, rfl⟩

/-! ## What a file contributes -/

/-- the area of a content path, where there is one -/
def intMeta (areas : Option Areas) (p : Str) : Prop := ∃ a, intArea areas p = some a ∧ isMeta a

instance (areas : Option Areas) (p : Str) : Decidable (intMeta areas p) := by
  unfold intMeta
  cases h : intArea areas p with
  | none => exact isFalse (by rintro ⟨a, ha, _⟩; cases ha)
  | some a =>
    by_cases hm : isMeta a
    · exact isTrue ⟨a, rfl, hm⟩
    · exact isFalse (by rintro ⟨b, hb, hm'⟩; cases hb; exact hm hm')

def intKey (areas : Option Areas) (p : Str) : Str := ((intArea areas p).map areaKey).getD []

def intDmd (areas : Option Areas) (alg id cs : Str) (ps : List Str) : List MdSec :=
  (ps.filter (fun p => decide (intMeta areas p))).map (fun p => newMdSec ("dmdSec-int-".toList ++ id) ⟨true, p⟩ [] [] cs alg)

def intStruct (areas : Option Areas) (id : Str) (ps : List Str) : List (Str × Str) :=
  (ps.filter (fun p => decide (¬ intMeta areas p))).map (fun p => (intKey areas p, id))

def intLocs (areas : Option Areas) (ps : List Str) : List Loc :=
  (ps.filter (fun p => decide (¬ intMeta areas p))).map (fun p => ⟨true, p⟩)

theorem metsInternal_ok {areas : Option Areas} {alg id cs : Str} {ps : List Str} :
    ∀ {st st' : MetsSt} {locs locs' : List Loc}, metsInternal areas alg id cs ps st locs = some (st', locs') →
    (∀ p ∈ ps, intArea areas p ≠ none) ∧ locs' = locs ++ intLocs areas ps ∧
      st' = { st with dmd := st.dmd ++ intDmd areas alg id cs ps, struct := mappends st.struct (intStruct areas id ps) } := by
  induction ps with
  | nil =>
    intro st st' locs locs' h
    cases h
    exact ⟨by simp, by simp [intLocs], by simp [intDmd, intStruct, mappends]⟩
  | cons p ps ih =>
    intro st st' locs locs' h
    unfold metsInternal at h
    cases ha : intArea areas p with
    | none => rw [ha] at h; cases h
    | some a =>
      rw [ha] at h
      simp only at h
      by_cases hm : isMeta a
      · rw [if_pos hm] at h
        obtain ⟨h1, h2, h3⟩ := ih h
        have hp : intMeta areas p := ⟨a, ha, hm⟩
        refine ⟨?_, ?_, ?_⟩
        · intro q hq
          rcases List.mem_cons.1 hq with rfl | hq
          · rw [ha]; simp
          · exact h1 q hq
        · rw [h2]; simp [intLocs, hp]
        · rw [h3]; simp [intDmd, intStruct, hp]
      · rw [if_neg hm] at h
        obtain ⟨h1, h2, h3⟩ := ih h
        have hp : ¬ intMeta areas p := by rintro ⟨b, hb, hb'⟩; rw [ha] at hb; cases hb; exact hm hb'
        have hk : intKey areas p = areaKey a := by simp [intKey, ha]
        refine ⟨?_, ?_, ?_⟩
        · intro q hq
          rcases List.mem_cons.1 hq with rfl | hq
          · rw [ha]; simp
          · exact h1 q hq
        · rw [h2]; simp [intLocs, hp]
        · rw [h3]
          simp only [intDmd, intStruct, List.filter_cons, hp, not_false_eq_true, decide_true, decide_false, if_true,
            Bool.false_eq_true, if_false, List.map_cons, hk]
          rfl

theorem metsInternal_none {areas : Option Areas} {alg id cs : Str} {ps : List Str} :
    ∀ {st : MetsSt} {locs : List Loc}, metsInternal areas alg id cs ps st locs = none ↔ ∃ p ∈ ps, intArea areas p = none := by
  induction ps with
  | nil => intro st locs; simp [metsInternal]
  | cons p ps ih =>
    intro st locs
    unfold metsInternal
    cases ha : intArea areas p with
    | none => simp [ha]
    | some a =>
      simp only
      split
      · rw [ih]; simp [ha]
      · rw [ih]; simp [ha]

def extDmd {V : Type} (x : MetsEnv V) (m : ObjMeta V) (own : List Str) (e : MEntry V) : List MdSec :=
  if isMeta (extArea x.areas e.path) ∧ e.path ∉ own then
    [newMdSec ("dmdSec-ext-".toList ++ fileId x e.path) ⟨false, e.path⟩ [] [] e.cs m.alg] else []

def entryDmd {V : Type} (x : MetsEnv V) (m : ObjMeta V) (own : List Str) (e : MEntry V) : List MdSec :=
  intDmd x.areas m.alg (fileId x e.path) e.cs e.file.internal ++ extDmd x m own e

def entryStruct {V : Type} (x : MetsEnv V) (e : MEntry V) : List (Str × Str) :=
  intStruct x.areas (fileId x e.path) e.file.internal

def entryFiles {V : Type} (x : MetsEnv V) (e : MEntry V) : List (Str × MFile) :=
  if isMeta (extArea x.areas e.path) then []
  else [(areaKey (extArea x.areas e.path),
    ⟨fileId x e.path, e.cs, "SHA-512".toList, intLocs x.areas e.file.internal ++ [⟨false, e.path⟩]⟩)]

def entryObjects {V : Type} (x : MetsEnv V) (m : ObjMeta V) (e : MEntry V) : List PObject :=
  if isMeta (extArea x.areas e.path) then [] else [⟨fileId x e.path, premisFixity m e⟩]

def entryEvents {V : Type} (x : MetsEnv V) (m : ObjMeta V) (e : MEntry V) : List PEvent :=
  e.file.versionName.map (fun v => packingEvent m (fileId x e.path) v.1) ++
    if isMeta (extArea x.areas e.path) then [] else migrationEvent x m e

/-- a state after the contributions of files -/
def addEntries {V : Type} (x : MetsEnv V) (m : ObjMeta V) (own : List Str) (es : List (MEntry V)) (st : MetsSt) : MetsSt :=
  ⟨st.dmd ++ es.flatMap (entryDmd x m own), mappends st.struct (es.flatMap (entryStruct x)),
   mappends st.files (es.flatMap (entryFiles x)), st.objects ++ es.flatMap (entryObjects x m),
   st.events ++ es.flatMap (entryEvents x m)⟩

theorem metsFileStep_ok {V : Type} {x : MetsEnv V} {m : ObjMeta V} {own : List Str} {st st' : MetsSt} {e : MEntry V}
    (h : metsFileStep x m own st e = .ok (some st')) :
    (∀ p ∈ e.file.internal, intArea x.areas p ≠ none) ∧ st' = addEntries x m own [e] st := by
  unfold metsFileStep at h
  simp only at h
  split at h
  · cases h
  · split at h
    · cases h
    · rename_i st1 locs hi
      obtain ⟨h1, h2, h3⟩ := metsInternal_ok hi
      refine ⟨h1, ?_⟩
      rw [List.nil_append] at h2
      subst h2 h3
      by_cases hm : isMeta (extArea x.areas e.path)
      · rw [if_pos hm] at h
        split at h
        · rename_i ho
          cases h
          simp [addEntries, entryDmd, extDmd, hm, ho, entryStruct, entryFiles, entryObjects, entryEvents, mappends]
        · rename_i ho
          cases h
          simp [addEntries, entryDmd, extDmd, hm, ho, entryStruct, entryFiles, entryObjects, entryEvents, mappends]
      · rw [if_neg hm] at h
        cases h
        simp [addEntries, entryDmd, extDmd, hm, entryStruct, entryFiles, entryObjects, entryEvents, mappends]

theorem addEntries_cons {V : Type} (x : MetsEnv V) (m : ObjMeta V) (own : List Str) (e : MEntry V) (es : List (MEntry V))
    (st : MetsSt) : addEntries x m own es (addEntries x m own [e] st) = addEntries x m own (e :: es) st := by
  simp [addEntries, ← mappends_append]

theorem metsFiles_ok {V : Type} {x : MetsEnv V} {m : ObjMeta V} {own : List Str} {es : List (MEntry V)} :
    ∀ {st st' : MetsSt}, metsFiles x m own es st = .ok (some st') →
    (∀ e ∈ es, ∀ p ∈ e.file.internal, intArea x.areas p ≠ none) ∧ st' = addEntries x m own es st := by
  induction es with
  | nil =>
    intro st st' h
    cases h
    exact ⟨by simp, by simp [addEntries, mappends]⟩
  | cons e es ih =>
    intro st st' h
    unfold metsFiles at h
    cases hs : metsFileStep x m own st e with
    | error er => rw [hs] at h; cases h
    | ok r =>
      rw [hs] at h
      cases r with
      | none => cases h
      | some st1 =>
        simp only at h
        obtain ⟨h1, rfl⟩ := metsFileStep_ok hs
        obtain ⟨h2, h3⟩ := ih h
        refine ⟨?_, h3.trans (addEntries_cons x m own e es st)⟩
        intro e' he'
        rcases List.mem_cons.1 he' with rfl | he'
        · exact h1
        · exact h2 e' he'

/-- the function ends early, without an error, only because of a content path it does not understand -/
theorem metsFiles_none {V : Type} {x : MetsEnv V} {m : ObjMeta V} {own : List Str} {es : List (MEntry V)} :
    ∀ {st : MetsSt}, metsFiles x m own es st = .ok none → ∃ e ∈ es, ∃ p ∈ e.file.internal, intArea x.areas p = none := by
  induction es with
  | nil => intro st h; cases h
  | cons e es ih =>
    intro st h
    unfold metsFiles at h
    cases hs : metsFileStep x m own st e with
    | error er => rw [hs] at h; cases h
    | ok r =>
      rw [hs] at h
      cases r with
      | none =>
        unfold metsFileStep at hs
        simp only at hs
        split at hs
        · cases hs
        · split at hs
          · rename_i hi
            obtain ⟨p, hp, hpa⟩ := metsInternal_none.1 hi
            exact ⟨e, by simp, p, hp, hpa⟩
          · split at hs
            · split at hs <;> cases hs
            · cases hs
      | some st1 =>
        simp only at h
        obtain ⟨e', he', r⟩ := ih h
        exact ⟨e', by simp [he'], r⟩

/-- the loop does not fail: all versions that have a file are known -/
theorem metsFiles_no_error {V : Type} {x : MetsEnv V} {m : ObjMeta V} {own : List Str} {es : List (MEntry V)}
    (hv : ∀ e ∈ es, ∀ v ∈ e.file.versionName, (mget m.versions v.1).isSome) :
    ∀ {st : MetsSt} {er : GoErr}, metsFiles x m own es st ≠ .error er := by
  induction es with
  | nil => intro st er h; cases h
  | cons e es ih =>
    intro st er h
    unfold metsFiles at h
    cases hs : metsFileStep x m own st e with
    | error er' =>
      unfold metsFileStep at hs
      simp only at hs
      split at hs
      · rename_i hb
        rw [List.any_eq_true] at hb
        obtain ⟨v, hvm, hvn⟩ := hb
        have := hv e (by simp) v hvm
        rw [Option.isNone_iff_eq_none] at hvn
        rw [hvn] at this; cases this
      · split at hs
        · cases hs
        · split at hs
          · split at hs <;> cases hs
          · cases hs
    | ok r =>
      rw [hs] at h
      cases r with
      | none => cases h
      | some st1 => exact ih (fun e' he' => hv e' (by simp [he'])) h

/-! ## The documents -/

theorem int_ne_ext {a b : Str} (h : "dmdSec-int-".toList ++ a = "dmdSec-ext-".toList ++ b) : False := by
  have h1 : "dmdSec-int-".toList = ['d', 'm', 'd', 'S', 'e', 'c', '-', 'i', 'n', 't', '-'] := rfl
  have h2 : "dmdSec-ext-".toList = ['d', 'm', 'd', 'S', 'e', 'c', '-', 'e', 'x', 't', '-'] := rfl
  rw [h1, h2] at h
  simp at h

/-- the state after the loop -/
def metsCollected {V : Type} (x : MetsEnv V) (m : ObjMeta V) (own : List Str) : MetsSt :=
  addEntries x m own (metsEntries m) ⟨[], [], [], [], []⟩

theorem metsDocs_ok {V : Type} {x : MetsEnv V} {m : ObjMeta V} {md : MetsDoc} {pd : PremisDoc}
    (h : metsDocs x m = .ok (some (md, pd))) : ∃ mn pn st,
      docNamesOf x x.cfg.metsFile = .ok mn ∧ docNamesOf x x.cfg.premisFile = .ok pn ∧
      (∀ e ∈ metsEntries m, ∀ p ∈ e.file.internal, intArea x.areas p ≠ none) ∧
      metsPrimary x m (metsCollected x m [mn.ext, pn.ext]) = .ok st ∧
      pd = ⟨st.objects, st.events⟩ ∧ md = metsDoc x pn st (x.sha512 (x.premisXml pd)) := by
  unfold metsDocs at h
  split at h
  · cases h
  · obtain ⟨mn, hmn, h⟩ := res_bind_eq_ok.1 h
    obtain ⟨pn, hpn, h⟩ := res_bind_eq_ok.1 h
    obtain ⟨r, hr, h⟩ := res_bind_eq_ok.1 h
    cases r with
    | none => cases h
    | some st0 =>
      obtain ⟨h1, h2⟩ := metsFiles_ok hr
      obtain ⟨st, hst, h⟩ := res_bind_eq_ok.1 h
      cases h
      subst h2
      exact ⟨mn, pn, st, hmn, hpn, h1, hst, rfl, rfl⟩

theorem metsPrimary_none {V : Type} {x : MetsEnv V} {m : ObjMeta V} {st st' : MetsSt} (hp : x.cfg.primary = [])
    (h : metsPrimary x m st = .ok st') : st' = st := by
  unfold metsPrimary at h
  rw [if_pos hp] at h
  cases h; rfl

/-- the sections of the primary metadata -/
structure PrimarySecs {V : Type} (x : MetsEnv V) (m : ObjMeta V) (cs : Str) (f : FileMeta V) (new : List MdSec) : Prop where
  found : ∃ t name, primaryName x.areas x.cfg.primary = .ok (t, name) ∧ (cs, f) ∈ m.files ∧
    name ∈ (mget f.versionName m.head).getD []
  sec : ∀ s ∈ new, s.checksum = cs ∧ s.checksumType = checksumTypeToMets m.alg ∧
    ((s.id = "dmdSec-int-".toList ++ (x.slug m.id ++ '-' :: m.head) ∧ ∃ p ∈ f.internal, s.loc = ⟨true, p⟩) ∨
     (s.id = "dmdSec-ext-".toList ++ (x.slug m.id ++ '-' :: m.head) ∧
       ∃ q ∈ (mget f.versionName m.head).getD [], s.loc = ⟨false, q⟩))
  ids : (new.map (·.id)).Nodup

theorem metsPrimary_ok {V : Type} {x : MetsEnv V} {m : ObjMeta V} {st st' : MetsSt} (hp : x.cfg.primary ≠ [])
    (h : metsPrimary x m st = .ok st') : ∃ cs f new, PrimarySecs x m cs f new ∧
      st'.dmd = st.dmd.filter (fun s => decide (s.checksum ≠ cs)) ++ new ∧
      st'.struct = mappends st.struct (st'.dmd.map (fun s => ("metadata".toList, s.id))) ∧
      st'.files = st.files ∧ st'.objects = st.objects ∧ st'.events = st.events ∧
      (∀ p, f.internal = [p] → ∃ s ∈ new, s.loc = ⟨true, p⟩) ∧
      ∀ q, mget f.versionName m.head = some [q] → ∃ s ∈ new, s.loc = ⟨false, q⟩ := by
  unfold metsPrimary at h
  rw [if_neg hp] at h
  obtain ⟨tn, htn, h⟩ := res_bind_eq_ok.1 h
  cases hf : findPrimary m tn.2 with
  | none => rw [hf] at h; cases h
  | some r =>
    obtain ⟨cs, f⟩ := r
    rw [hf] at h
    cases h
    unfold findPrimary at hf
    have hmem := List.mem_of_find?_eq_some hf
    have hname := List.find?_some hf
    rw [decide_eq_true_eq] at hname
    refine ⟨cs, f, _, ⟨⟨tn.1, tn.2, htn, hmem, hname⟩, ?_, ?_⟩, rfl, ?_, rfl, rfl, rfl, ?_, ?_⟩
    · intro s hs
      rw [List.mem_append, List.mem_map, List.mem_map] at hs
      rcases hs with ⟨p, hp', rfl⟩ | ⟨q, hq, rfl⟩
      · exact ⟨rfl, rfl, Or.inl ⟨rfl, p, List.mem_of_mem_take hp', rfl⟩⟩
      · exact ⟨rfl, rfl, Or.inr ⟨rfl, q, List.mem_of_mem_take hq, rfl⟩⟩
    · have hcons : ∀ (l : List Str) (g : Str → MdSec) (i : Str), (∀ p, (g p).id = i) →
          (((l.take 1).map g).map (·.id)).Nodup ∧ ∀ y ∈ ((l.take 1).map g).map (·.id), y = i := by
        intro l g i hg
        cases l with
        | nil => simp
        | cons a l => simp [hg]
      rw [List.map_append]
      obtain ⟨a1, a2⟩ := hcons f.internal
        (fun p => newMdSec ("dmdSec-int-".toList ++ (x.slug m.id ++ '-' :: m.head)) ⟨true, p⟩ (primaryType tn.1).1
          (primaryType tn.1).2 cs m.alg) _ (fun _ => rfl)
      obtain ⟨b1, b2⟩ := hcons ((mget f.versionName m.head).getD [])
        (fun q => newMdSec ("dmdSec-ext-".toList ++ (x.slug m.id ++ '-' :: m.head)) ⟨false, q⟩ (primaryType tn.1).1
          (primaryType tn.1).2 cs m.alg) _ (fun _ => rfl)
      refine List.nodup_append.2 ⟨a1, b1, ?_⟩
      intro a ha b hb hab
      rw [a2 a ha, b2 b hb] at hab
      exact int_ne_ext hab
    · simp only [mappends, List.foldl_map]
    · intro p hp'
      exact ⟨_, List.mem_append_left _ (List.mem_map.2 ⟨p, by rw [hp']; simp, rfl⟩), rfl⟩
    · intro q hq
      exact ⟨_, List.mem_append_right _ (List.mem_map.2 ⟨q, by rw [hq]; simp, rfl⟩), rfl⟩

/-- what the primary metadata leaves as it was -/
theorem metsPrimary_frame {V : Type} {x : MetsEnv V} {m : ObjMeta V} {st st' : MetsSt} (h : metsPrimary x m st = .ok st') :
    st'.files = st.files ∧ st'.objects = st.objects ∧ st'.events = st.events := by
  by_cases hp : x.cfg.primary = []
  · rw [metsPrimary_none hp h]; exact ⟨rfl, rfl, rfl⟩
  · obtain ⟨_, _, _, _, _, _, h1, h2, h3, _⟩ := metsPrimary_ok hp h
    exact ⟨h1, h2, h3⟩

/-! ## What is listed -/

/-- the METS document lists a location with a checksum, as a file or as descriptive metadata -/
def MetsDoc.Lists (md : MetsDoc) (internal : Bool) (href cs : Str) : Prop :=
  (∃ g ∈ md.groups, ∃ f ∈ g.files, f.checksum = cs ∧ ⟨internal, href⟩ ∈ f.locs) ∨
  ∃ s ∈ md.dmd, s.checksum = cs ∧ s.loc = ⟨internal, href⟩

theorem metaFiles_nodup {V : Type} {inv : Inv} {exts : List (Str × Res (AMap Str V))} {m : ObjMeta V}
    (hf : (mkeys inv.manifest).Nodup) (h : objMetadata inv exts = .ok m) : (mkeys m.files).Nodup := by
  obtain ⟨em, _, rfl⟩ := objMetadata_ok h
  have : ∀ l : DMap, (mkeys l).Nodup →
      (mkeys (l.filterMap (fun e => if e.2 = [] then none else some (e.1, fileMeta inv em e.1 e.2)))).Nodup := by
    intro l hl
    refine hl.sublist ?_
    unfold mkeys
    rw [List.map_filterMap]
    have : (fun e : Str × List Str => Option.map Prod.fst
        (if e.2 = [] then none else some (e.1, fileMeta inv em e.1 e.2))) =
        fun e => if e.2 = [] then none else some e.1 := by
      funext e; split <;> rfl
    rw [this]
    induction l with
    | nil => exact List.Sublist.refl _
    | cons a l ih =>
      rw [List.filterMap_cons]
      have hl' : (mkeys l).Nodup := (List.nodup_cons.1 hl).2
      split
      · exact (ih hl').cons _
      · rename_i b hb
        split at hb
        · cases hb
        · cases hb; exact (ih hl').cons_cons _
  exact this _ hf

/-- the files of the head version, by what the metadata of the object says -/
theorem mem_metsEntries {V : Type} {inv : Inv} {exts : List (Str × Res (AMap Str V))} {m : ObjMeta V}
    (hf : (mkeys inv.manifest).Nodup) (h : objMetadata inv exts = .ok m) (e : MEntry V) :
    e ∈ metsEntries m ↔ mget m.files e.cs = some e.file ∧ ∃ ps, mget e.file.versionName m.head = some ps ∧ e.path ∈ ps := by
  have hn := metaFiles_nodup hf h
  unfold metsEntries
  rw [List.mem_flatMap]
  constructor
  · rintro ⟨⟨cs, f⟩, hm, he⟩
    rw [List.mem_map] at he
    obtain ⟨q, hq, rfl⟩ := he
    refine ⟨mget_of_mem hn hm, ?_⟩
    cases hv : mget f.versionName m.head with
    | none => simp only [hv, Option.getD_none] at hq; cases hq
    | some ps => simp only [hv, Option.getD_some] at hq; exact ⟨ps, rfl, hq⟩
  · rintro ⟨h1, ps, h2, h3⟩
    refine ⟨(e.cs, e.file), mem_of_mget h1, ?_⟩
    rw [List.mem_map]
    refine ⟨e.path, ?_, rfl⟩
    simp only [h2, Option.getD_some]
    exact h3

/-- an inventory as the program keeps it -/
structure GoodInv (inv : Inv) (n : Nat) : Prop where
  wf : WF inv n
  pos : 0 < n
  man : (mkeys inv.manifest).Nodup
  refs : RefsResolve inv
  one : OneDigestPerPath inv

theorem GoodInv.exact {V : Type} {inv : Inv} {n : Nat} (hg : GoodInv inv n) {exts : List (Str × Res (AMap Str V))}
    {m : ObjMeta V} (h : objMetadata inv exts = .ok m) : MetaExact inv m :=
  C83_metadata_exact_partial hg.wf.1.nodup hg.wf.2 hg.man hg.refs h

theorem entry_hasFile {V : Type} {inv : Inv} {n : Nat} (hg : GoodInv inv n) {exts : List (Str × Res (AMap Str V))}
    {m : ObjMeta V} (h : objMetadata inv exts = .ok m) {e : MEntry V} (he : e ∈ metsEntries m) :
    HasFile inv inv.head e.path e.cs ∧ mget inv.manifest e.cs = some e.file.internal := by
  have hx := hg.exact h
  obtain ⟨h1, ps, h2, h3⟩ := (mem_metsEntries hg.man h e).1 he
  refine ⟨(hx.names _ _ _).2 ⟨e.file, ps, h1, by rw [← hx.head]; exact h2, h3⟩, ?_⟩
  rw [← hx.files, h1]; rfl

theorem hasFile_entry {V : Type} {inv : Inv} {n : Nat} (hg : GoodInv inv n) {exts : List (Str × Res (AMap Str V))}
    {m : ObjMeta V} (h : objMetadata inv exts = .ok m) {q d : Str} (hf : HasFile inv inv.head q d) :
    ∃ e ∈ metsEntries m, e.path = q ∧ e.cs = d := by
  have hx := hg.exact h
  obtain ⟨f, ps, h1, h2, h3⟩ := (hx.names _ _ _).1 hf
  exact ⟨⟨d, f, q⟩, (mem_metsEntries hg.man h _).2 ⟨h1, ps, by rw [hx.head]; exact h2, h3⟩, rfl, rfl⟩

theorem intDmd_mem {areas : Option Areas} {alg id cs : Str} {ps : List Str} {s : MdSec}
    (h : s ∈ intDmd areas alg id cs ps) : s.id = "dmdSec-int-".toList ++ id ∧ s.checksum = cs ∧
      s.checksumType = checksumTypeToMets alg ∧ ∃ p ∈ ps, intMeta areas p ∧ s.loc = ⟨true, p⟩ := by
  unfold intDmd at h
  rw [List.mem_map] at h
  obtain ⟨p, hp, rfl⟩ := h
  rw [List.mem_filter, decide_eq_true_eq] at hp
  exact ⟨rfl, rfl, rfl, p, hp.1, hp.2, rfl⟩

theorem extDmd_mem {V : Type} {x : MetsEnv V} {m : ObjMeta V} {own : List Str} {e : MEntry V} {s : MdSec}
    (h : s ∈ extDmd x m own e) : s.id = "dmdSec-ext-".toList ++ fileId x e.path ∧ s.checksum = e.cs ∧
      s.checksumType = checksumTypeToMets m.alg ∧ s.loc = ⟨false, e.path⟩ ∧ isMeta (extArea x.areas e.path) := by
  unfold extDmd at h
  split at h
  · rename_i hm
    rw [List.mem_singleton] at h
    subst h
    exact ⟨rfl, rfl, rfl, rfl, hm.1⟩
  · cases h

/-- the files of a document, with their groups -/
theorem mem_groups {V : Type} {x : MetsEnv V} {m : ObjMeta V} {own : List Str} {st : MetsSt} {pn : DocNames} {sum : Str}
    (hst : st.files = (metsCollected x m own).files) {k : Str} {f : MFile} :
    (∃ g ∈ (metsDoc x pn st sum).groups, g.area = k ∧ f ∈ g.files) ↔
      ∃ e ∈ metsEntries m, ¬ isMeta (extArea x.areas e.path) ∧ k = areaKey (extArea x.areas e.path) ∧
        f = ⟨fileId x e.path, e.cs, "SHA-512".toList, intLocs x.areas e.file.internal ++ [⟨false, e.path⟩]⟩ := by
  have h1 : (∃ g ∈ (metsDoc x pn st sum).groups, g.area = k ∧ f ∈ g.files) ↔
      ∃ l, (k, l) ∈ mappends [] ((metsEntries m).flatMap (entryFiles x)) ∧ f ∈ l := by
    have hst : st.files = mappends [] ((metsEntries m).flatMap (entryFiles x)) := hst
    unfold metsDoc
    rw [← hst]
    constructor
    · rintro ⟨g, hg, rfl, hf⟩
      rw [List.mem_map] at hg
      obtain ⟨⟨a, l⟩, hl, rfl⟩ := hg
      exact ⟨l, (List.mem_filter.1 hl).1, hf⟩
    · rintro ⟨l, hl, hf⟩
      refine ⟨⟨k, groupId x k, l⟩, List.mem_map.2 ⟨(k, l), List.mem_filter.2 ⟨hl, ?_⟩, rfl⟩, rfl, hf⟩
      rw [decide_eq_true_eq]
      rintro rfl
      cases hf
  rw [h1, mem_mappends, List.mem_flatMap]
  constructor
  · rintro ⟨e, he, hf⟩
    unfold entryFiles at hf
    split at hf
    · cases hf
    · rename_i hm
      rw [List.mem_singleton] at hf
      cases hf
      exact ⟨e, he, hm, rfl, rfl⟩
  · rintro ⟨e, he, hm, rfl, rfl⟩
    refine ⟨e, he, ?_⟩
    unfold entryFiles
    rw [if_neg hm]
    exact List.mem_singleton.2 rfl

theorem mem_collected_dmd {V : Type} {x : MetsEnv V} {m : ObjMeta V} {own : List Str} {s : MdSec} :
    s ∈ (metsCollected x m own).dmd ↔ ∃ e ∈ metsEntries m,
      s ∈ intDmd x.areas m.alg (fileId x e.path) e.cs e.file.internal ∨ s ∈ extDmd x m own e := by
  unfold metsCollected addEntries entryDmd
  simp only [List.nil_append, List.mem_flatMap, List.mem_append]

/-- C117, what is listed exists: each file and descriptive metadata listed with an external location is a file of the
version with that digest, each internal location is a content path of that digest, which is used by the version. -/
theorem listed_exists {V : Type} {inv : Inv} {n : Nat} (hg : GoodInv inv n) {x : MetsEnv V}
    {exts : List (Str × Res (AMap Str V))} {m : ObjMeta V} (h : objMetadata inv exts = .ok m) {md : MetsDoc} {pd : PremisDoc}
    (hd : metsDocs x m = .ok (some (md, pd))) :
    (∀ q d, md.Lists false q d → HasFile inv inv.head q d) ∧
    ∀ p d, md.Lists true p d → (∃ ps, mget inv.manifest d = some ps ∧ p ∈ ps) ∧ ∃ q, HasFile inv inv.head q d := by
  obtain ⟨mn, pn, st, _, _, _, hst, rfl, rfl⟩ := metsDocs_ok hd
  have hfiles := (metsPrimary_frame hst).1
  have key : ∀ b href d, (metsDoc x pn st (x.sha512 (x.premisXml ⟨st.objects, st.events⟩))).Lists b href d →
      (b = false ∧ HasFile inv inv.head href d) ∨
      (b = true ∧ (∃ ps, mget inv.manifest d = some ps ∧ href ∈ ps) ∧ ∃ q, HasFile inv inv.head q d) := by
    rintro b href d (⟨g, hgm, f, hf, rfl, hloc⟩ | ⟨s, hs, rfl, hloc⟩)
    · obtain ⟨e, he, _, _, rfl⟩ := (mem_groups hfiles).1 ⟨g, hgm, rfl, hf⟩
      obtain ⟨hH, hM⟩ := entry_hasFile hg h he
      simp only [List.mem_append, List.mem_singleton, intLocs, List.mem_map, List.mem_filter] at hloc
      rcases hloc with ⟨p, hp, hl⟩ | hl
      · cases hl
        exact Or.inr ⟨rfl, ⟨_, hM, hp.1⟩, _, hH⟩
      · cases hl
        exact Or.inl ⟨rfl, hH⟩
    · have hs : s ∈ st.dmd := hs
      have hcoll : ∀ s ∈ (metsCollected x m [mn.ext, pn.ext]).dmd, s.loc = ⟨b, href⟩ →
          (b = false ∧ HasFile inv inv.head href s.checksum) ∨
          (b = true ∧ (∃ ps, mget inv.manifest s.checksum = some ps ∧ href ∈ ps) ∧ ∃ q, HasFile inv inv.head q s.checksum) := by
        intro s hs hloc
        obtain ⟨e, he, hs⟩ := mem_collected_dmd.1 hs
        obtain ⟨hH, hM⟩ := entry_hasFile hg h he
        rcases hs with hs | hs
        · obtain ⟨_, hc, _, p, hp, _, hl⟩ := intDmd_mem hs
          rw [hl] at hloc; cases hloc
          rw [hc]
          exact Or.inr ⟨rfl, ⟨_, hM, hp⟩, _, hH⟩
        · obtain ⟨_, hc, _, hl, _⟩ := extDmd_mem hs
          rw [hl] at hloc; cases hloc
          rw [hc]
          exact Or.inl ⟨rfl, hH⟩
      by_cases hp : x.cfg.primary = []
      · rw [metsPrimary_none hp hst] at hs
        exact hcoll s hs hloc
      · obtain ⟨cs, f, new, hP, hdmd, _⟩ := metsPrimary_ok hp hst
        rw [hdmd, List.mem_append] at hs
        rcases hs with hs | hs
        · exact hcoll s (List.mem_filter.1 hs).1 hloc
        · obtain ⟨t, name, _, hmem, hname⟩ := hP.found
          obtain ⟨hc, _, hl⟩ := hP.sec s hs
          have hent : ∀ q ∈ (mget f.versionName m.head).getD [], (⟨cs, f, q⟩ : MEntry V) ∈ metsEntries m := by
            intro q hq
            unfold metsEntries
            exact List.mem_flatMap.2 ⟨(cs, f), hmem, List.mem_map.2 ⟨q, hq, rfl⟩⟩
          rw [hc]
          rcases hl with ⟨_, p, hp, hl⟩ | ⟨_, q, hq, hl⟩
          · rw [hl] at hloc; cases hloc
            obtain ⟨hH, hM⟩ := entry_hasFile hg h (hent name hname)
            exact Or.inr ⟨rfl, ⟨_, hM, hp⟩, _, hH⟩
          · rw [hl] at hloc; cases hloc
            exact Or.inl ⟨rfl, (entry_hasFile hg h (hent _ hq)).1⟩
  refine ⟨fun q d hl => ?_, fun p d hl => ?_⟩
  · rcases key _ _ _ hl with ⟨_, h⟩ | ⟨h, _⟩
    · exact h
    · cases h
  · rcases key _ _ _ hl with ⟨h, _⟩ | ⟨_, h⟩
    · cases h
    · exact h

/-- the file with the primary metadata is the only one with its content, which is stored once -/
def PrimaryAlone {V : Type} (x : MetsEnv V) (inv : Inv) : Prop :=
  x.cfg.primary = [] ∨ ∀ t name d, primaryName x.areas x.cfg.primary = .ok (t, name) → HasFile inv inv.head name d →
    (∃ p, mget inv.manifest d = some [p]) ∧ ∀ q, HasFile inv inv.head q d → q = name

/-- a file and the paths where its content is stored are both metadata, or none is -/
def AreasAgree {V : Type} (x : MetsEnv V) (inv : Inv) : Prop :=
  ∀ q d ps p, HasFile inv inv.head q d → mget inv.manifest d = some ps → p ∈ ps →
    (intMeta x.areas p ↔ isMeta (extArea x.areas q))

/-- the digest's names in the head version are listed once -/
theorem headNames_nodup {V : Type} {inv : Inv} {n : Nat} (hg : GoodInv inv n) {exts : List (Str × Res (AMap Str V))}
    {m : ObjMeta V} (h : objMetadata inv exts = .ok m) {d : Str} {f : FileMeta V} {ps : List Str}
    (hf : mget m.files d = some f) (hps : mget f.versionName m.head = some ps) : ps.Nodup := by
  obtain ⟨em, _, rfl⟩ := objMetadata_ok h
  simp only at hf hps
  rw [mget_metaFiles hg.man] at hf
  cases hm : mget inv.manifest d with
  | none => rw [hm] at hf; cases hf
  | some fn =>
    rw [hm] at hf
    simp only [Option.bind_some] at hf
    split at hf
    · cases hf
    · cases hf
      unfold fileMeta at hps
      simp only at hps
      have := mget_filterMapKV hg.wf.1.nodup (fun _ (v : Version) => mget v.state d) inv.head
      rw [this] at hps
      cases hv : mget inv.versions inv.head with
      | none => rw [hv] at hps; cases hps
      | some ver =>
        rw [hv] at hps
        have hps : mget ver.state d = some ps := hps
        have hone := hg.one _ _ (mem_of_mget hv)
        have hmem := mem_of_mget hps
        obtain ⟨l1, l2, hl⟩ := List.append_of_mem hmem
        rw [hl, List.flatMap_append, List.flatMap_cons] at hone
        exact (List.nodup_append.1 (List.nodup_append.1 hone).2.1).1

theorem eq_singleton_of_nodup {α : Type} {l : List α} {a : α} (hn : l.Nodup) (hm : a ∈ l) (h : ∀ b ∈ l, b = a) : l = [a] := by
  cases l with
  | nil => cases hm
  | cons b l =>
    have hb := h b (by simp)
    subst hb
    cases l with
    | nil => rfl
    | cons c l =>
      have hc := h c (by simp)
      subst hc
      simp at hn

/-- C117, what exists is listed: the files but for the documents themselves, and the paths where their contents are stored -/
theorem exists_listed {V : Type} {inv : Inv} {n : Nat} (hg : GoodInv inv n) {x : MetsEnv V}
    {exts : List (Str × Res (AMap Str V))} {m : ObjMeta V} (h : objMetadata inv exts = .ok m) {md : MetsDoc} {pd : PremisDoc}
    (hd : metsDocs x m = .ok (some (md, pd))) (hp : PrimaryAlone x inv) {mn pn : DocNames}
    (hmn : docNamesOf x x.cfg.metsFile = .ok mn) (hpn : docNamesOf x x.cfg.premisFile = .ok pn) {q d : Str}
    (hf : HasFile inv inv.head q d) :
    (q ≠ mn.ext → q ≠ pn.ext → md.Lists false q d) ∧
    (AreasAgree x inv → ∀ ps p, mget inv.manifest d = some ps → p ∈ ps → md.Lists true p d) := by
  obtain ⟨mn', pn', st, h1, h2, _, hst, rfl, rfl⟩ := metsDocs_ok hd
  rw [hmn] at h1; cases h1
  rw [hpn] at h2; cases h2
  have hfiles := (metsPrimary_frame hst).1
  obtain ⟨e, he, rfl, rfl⟩ := hasFile_entry hg h hf
  obtain ⟨_, hM⟩ := entry_hasFile hg h he
  -- the sections that were collected are kept, or there is one for the primary metadata
  have hkeep : ∀ s ∈ (metsCollected x m [mn.ext, pn.ext]).dmd, s.checksum = e.cs →
      ((∃ p ∈ e.file.internal, s.loc = ⟨true, p⟩) ∨ s.loc = ⟨false, e.path⟩) →
      ∃ s' ∈ st.dmd, s'.checksum = e.cs ∧ s'.loc = s.loc := by
    intro s hs hc hl
    by_cases hpp : x.cfg.primary = []
    · rw [metsPrimary_none hpp hst]
      exact ⟨s, hs, hc, rfl⟩
    · obtain ⟨cs, f, new, hP, hdmd, _, _, _, _, hi, hx⟩ := metsPrimary_ok hpp hst
      rw [hdmd]
      by_cases hcs : s.checksum = cs
      · obtain ⟨t, name, hn, hmem, hname⟩ := hP.found
        have hent : (⟨cs, f, name⟩ : MEntry V) ∈ metsEntries m := by
          unfold metsEntries
          exact List.mem_flatMap.2 ⟨(cs, f), hmem, List.mem_map.2 ⟨name, hname, rfl⟩⟩
        obtain ⟨hH, hM'⟩ := entry_hasFile hg h hent
        obtain ⟨k1, ps, k2, k3⟩ := (mem_metsEntries hg.man h _).1 hent
        obtain ⟨e1, ps', e2, e3⟩ := (mem_metsEntries hg.man h _).1 he
        rcases hp with hp | hp
        · exact absurd hp hpp
        · obtain ⟨⟨p, hpone⟩, hq⟩ := hp t name cs hn hH
          have hcse : e.cs = cs := hc.symm.trans hcs
          have hM'' : mget inv.manifest cs = some f.internal := hM'
          have hfi : f.internal = [p] := by rw [hM''] at hpone; exact Option.some.inj hpone
          have hei : e.file.internal = [p] := by
            rw [hcse, hpone] at hM; exact (Option.some.inj hM).symm
          have hnd := headNames_nodup hg h k1 k2
          have hpsn : ps = [name] := by
            refine eq_singleton_of_nodup hnd k3 ?_
            intro b hb
            refine hq b ((hg.exact h).names _ _ _ |>.2 ⟨f, ps, k1, ?_, hb⟩)
            rw [← (hg.exact h).head]; exact k2
          have hqe : e.path = name := hq _ (hcse ▸ hf)
          rcases hl with ⟨p', hp', hl⟩ | hl
          · rw [hei, List.mem_singleton] at hp'
            subst hp'
            obtain ⟨s', hs', hl'⟩ := hi p' hfi
            exact ⟨s', List.mem_append_right _ hs', (hP.sec s' hs').1.trans hcse.symm, hl'.trans hl.symm⟩
          · obtain ⟨s', hs', hl'⟩ := hx name (by rw [k2, hpsn])
            exact ⟨s', List.mem_append_right _ hs', (hP.sec s' hs').1.trans hcse.symm, by rw [hl', hl, hqe]⟩
      · exact ⟨s, List.mem_append_left _ (List.mem_filter.2 ⟨hs, by simpa using hcs⟩), hc, rfl⟩
  have hfile : ¬ isMeta (extArea x.areas e.path) → ∀ l, l ∈ intLocs x.areas e.file.internal ++ [⟨false, e.path⟩] →
      (metsDoc x pn st (x.sha512 (x.premisXml ⟨st.objects, st.events⟩))).Lists l.internal l.href e.cs := by
    intro hm l hl
    obtain ⟨g, hgm, _, hfg⟩ := (mem_groups (x := x) (pn := pn) (sum := x.sha512 (x.premisXml ⟨st.objects, st.events⟩))
      hfiles (k := areaKey (extArea x.areas e.path)) (f := _)).2 ⟨e, he, hm, rfl, rfl⟩
    exact Or.inl ⟨g, hgm, _, hfg, rfl, hl⟩
  refine ⟨fun hq1 hq2 => ?_, fun ha ps p hps hpm => ?_⟩
  · by_cases hm : isMeta (extArea x.areas e.path)
    · have hs : newMdSec ("dmdSec-ext-".toList ++ fileId x e.path) ⟨false, e.path⟩ [] [] e.cs m.alg ∈
          (metsCollected x m [mn.ext, pn.ext]).dmd := by
        refine mem_collected_dmd.2 ⟨e, he, Or.inr ?_⟩
        unfold extDmd
        rw [if_pos ⟨hm, by simp [hq1, hq2]⟩]
        exact List.mem_singleton.2 rfl
      obtain ⟨s', hs', hc', hl'⟩ := hkeep _ hs rfl (Or.inr rfl)
      exact Or.inr ⟨s', hs', hc', hl'⟩
    · exact hfile hm ⟨false, e.path⟩ (by simp)
  · rw [hM] at hps; cases hps
    by_cases hm : intMeta x.areas p
    · have hs : newMdSec ("dmdSec-int-".toList ++ fileId x e.path) ⟨true, p⟩ [] [] e.cs m.alg ∈
          (metsCollected x m [mn.ext, pn.ext]).dmd := by
        refine mem_collected_dmd.2 ⟨e, he, Or.inl ?_⟩
        unfold intDmd
        exact List.mem_map.2 ⟨p, List.mem_filter.2 ⟨hpm, by simpa using hm⟩, rfl⟩
      obtain ⟨s', hs', hc', hl'⟩ := hkeep _ hs rfl (Or.inl ⟨p, hpm, rfl⟩)
      exact Or.inr ⟨s', hs', hc', hl'⟩
    · have hm' : ¬ isMeta (extArea x.areas e.path) := fun hh => hm ((ha e.path e.cs _ p hf hM hpm).2 hh)
      refine hfile hm' ⟨true, p⟩ (List.mem_append_left _ ?_)
      unfold intLocs
      exact List.mem_map.2 ⟨p, List.mem_filter.2 ⟨hpm, by simpa using hm⟩, rfl⟩

/-! ## Identifiers -/

/-- the identifiers of a METS document that are pointed at -/
def metsIds (md : MetsDoc) : List Str :=
  md.dmd.map (·.id) ++ (md.amd.map (·.id) ++ (md.groups.map (·.id) ++ md.groups.flatMap (fun g => g.files.map (·.id))))

/-- generated identifiers differ and are strings of hex digits and minus signs -/
structure FreshIds {V : Type} (x : MetsEnv V) : Prop where
  inj : ∀ a b, x.uuid a = x.uuid b → a = b
  noV : ∀ a, 'v' ∉ x.uuid a

/-- the areas of the files are known beforehand -/
def AreasKnown {V : Type} (x : MetsEnv V) (inv : Inv) : Prop :=
  ∀ q d, HasFile inv inv.head q d → areaKey (extArea x.areas q) ∈ knownAreas x.areas

/-- contents are stored at most once as metadata -/
def MetaOnce {V : Type} (x : MetsEnv V) (inv : Inv) : Prop :=
  ∀ q d ps, HasFile inv inv.head q d → mget inv.manifest d = some ps →
    (ps.filter (fun p => decide (intMeta x.areas p))).length ≤ 1

theorem fileId_inj {V : Type} {x : MetsEnv V} (hu : FreshIds x) {a b : Str} (h : fileId x a = fileId x b) : a = b := by
  unfold fileId at h
  have := hu.inj _ _ (List.append_cancel_left h)
  cases this; rfl

theorem hasFile_unique {inv : Inv} {n : Nat} (hg : GoodInv inv n) {q d d' : Str} (h : HasFile inv inv.head q d)
    (h' : HasFile inv inv.head q d') : d = d' := by
  obtain ⟨s, hs⟩ := hg.wf.1.headState hg.pos
  obtain ⟨v, hv, hvs⟩ := headState_eq_ok.1 hs
  have hone := hg.one _ _ (mem_of_mget hv)
  rw [hvs] at hone
  exact inSt_unique hone ((hasFile_head hg.wf.1.nodup hs).1 h) ((hasFile_head hg.wf.1.nodup hs).1 h')

/-- each logical path is described once -/
theorem entries_nodup {V : Type} {inv : Inv} {n : Nat} (hg : GoodInv inv n) {exts : List (Str × Res (AMap Str V))}
    {m : ObjMeta V} (h : objMetadata inv exts = .ok m) : ((metsEntries m).map (·.path)).Nodup := by
  have hn := metaFiles_nodup hg.man h
  have hmem := mem_metsEntries hg.man h
  have hfile := fun (e : MEntry V) => entry_hasFile hg h (e := e)
  unfold metsEntries
  rw [List.map_flatMap, List.nodup_flatMap]
  have hin : ∀ e ∈ m.files, ∀ q ∈ (mget e.2.versionName m.head).getD [], (⟨e.1, e.2, q⟩ : MEntry V) ∈ metsEntries m := by
    intro e he q hq
    unfold metsEntries
    exact List.mem_flatMap.2 ⟨e, he, List.mem_map.2 ⟨q, hq, rfl⟩⟩
  refine ⟨?_, ?_⟩
  · intro e he
    rw [List.map_map]
    have : ((fun (e : MEntry V) => e.path) ∘ fun q => (⟨e.1, e.2, q⟩ : MEntry V)) = id := rfl
    rw [this, List.map_id]
    cases hv : mget e.2.versionName m.head with
    | none => exact List.nodup_nil
    | some ps => exact headNames_nodup hg h (mget_of_mem hn he) hv
  · have hp : m.files.Pairwise (fun a b => a.1 ≠ b.1) := by
      have : (m.files.map (·.1)).Pairwise (· ≠ ·) := hn
      rwa [List.pairwise_map] at this
    refine hp.imp_of_mem ?_
    intro a b ha hb hab q hqa hqb
    simp only [List.map_map, List.mem_map] at hqa hqb
    obtain ⟨q1, h1, rfl⟩ := hqa
    obtain ⟨q2, h2, h3⟩ := hqb
    have h3 : q2 = q1 := h3
    subst h3
    exact hab (hasFile_unique hg (hfile _ (hin a ha _ h1)).1 (hfile _ (hin b hb _ h2)).1)

/-- lists of at most one element each, with values that determine where they are from -/
theorem nodup_flatMap_of {α β γ : Type} {l : List α} {key : α → γ} (hk : (l.map key).Nodup) {f : α → List β}
    (h1 : ∀ a ∈ l, (f a).Nodup) (h2 : ∀ a ∈ l, ∀ b ∈ l, ∀ y, y ∈ f a → y ∈ f b → key a = key b) : (l.flatMap f).Nodup := by
  rw [List.nodup_flatMap]
  refine ⟨h1, ?_⟩
  have hp : l.Pairwise (fun a b => key a ≠ key b) := by
    have : (l.map key).Pairwise (· ≠ ·) := hk
    rwa [List.pairwise_map] at this
  refine hp.imp_of_mem ?_
  intro a b ha hb hab y hya hyb
  exact hab (h2 a ha b hb y hya hyb)

theorem ext_ne_int {a b : Str} (h : "amdSec-int-uuid-".toList ++ a = "amdSec-ext-uuid-".toList ++ b) : False := by
  have h1 : "amdSec-int-uuid-".toList = ['a', 'm', 'd', 'S', 'e', 'c', '-', 'i', 'n', 't', '-', 'u', 'u', 'i', 'd', '-'] := rfl
  have h2 : "amdSec-ext-uuid-".toList = ['a', 'm', 'd', 'S', 'e', 'c', '-', 'e', 'x', 't', '-', 'u', 'u', 'i', 'd', '-'] := rfl
  rw [h1, h2] at h
  simp at h

theorem head_has_v {inv : Inv} {n : Nat} (hg : GoodInv inv n) : 'v' ∈ inv.head := by
  rw [hg.wf.1.head_eq hg.pos]
  unfold verName
  split <;> exact List.mem_cons_self

/-- the identifiers of the descriptive sections -/
theorem dmd_ids {V : Type} {inv : Inv} {n : Nat} (hg : GoodInv inv n) {x : MetsEnv V} (hu : FreshIds x)
    {exts : List (Str × Res (AMap Str V))} {m : ObjMeta V} (h : objMetadata inv exts = .ok m) (ho : MetaOnce x inv)
    {own : List Str} {st : MetsSt} (hst : metsPrimary x m (metsCollected x m own) = .ok st) :
    (st.dmd.map (·.id)).Nodup := by
  have hcoll : ((metsCollected x m own).dmd.map (·.id)).Nodup := by
    have : (metsCollected x m own).dmd = (metsEntries m).flatMap (entryDmd x m own) := by
      unfold metsCollected addEntries; simp
    rw [this, List.map_flatMap]
    have hids : ∀ e y, y ∈ (entryDmd x m own e).map (·.id) →
        y = "dmdSec-int-".toList ++ fileId x e.path ∨ y = "dmdSec-ext-".toList ++ fileId x e.path := by
      intro e y hy
      rw [List.mem_map] at hy
      obtain ⟨s, hs, rfl⟩ := hy
      unfold entryDmd at hs
      rcases List.mem_append.1 hs with hs | hs
      · exact Or.inl (intDmd_mem hs).1
      · exact Or.inr (extDmd_mem hs).1
    refine nodup_flatMap_of (entries_nodup hg h) ?_ ?_
    · intro e he
      obtain ⟨hH, hM⟩ := entry_hasFile hg h he
      unfold entryDmd
      rw [List.map_append, List.nodup_append]
      refine ⟨?_, ?_, ?_⟩
      · have hlen := ho _ _ _ hH hM
        unfold intDmd
        generalize (e.file.internal.filter (fun p => decide (intMeta x.areas p))) = l at hlen
        match l, hlen with
        | [], _ => simp
        | [a], _ => simp
      · unfold extDmd
        split <;> simp
      · intro a ha b hb hab
        rw [List.mem_map] at ha hb
        obtain ⟨s, hs, rfl⟩ := ha
        obtain ⟨s', hs', rfl⟩ := hb
        rw [(intDmd_mem hs).1, (extDmd_mem hs').1] at hab
        exact int_ne_ext hab
    · intro a _ b _ y hya hyb
      rcases hids a y hya with h1 | h1 <;> rcases hids b y hyb with h2 | h2
      · exact fileId_inj hu (List.append_cancel_left (h1.symm.trans h2))
      · exact absurd (h1.symm.trans h2) (fun h => int_ne_ext h)
      · exact absurd (h2.symm.trans h1) (fun h => int_ne_ext h)
      · exact fileId_inj hu (List.append_cancel_left (h1.symm.trans h2))
  by_cases hp : x.cfg.primary = []
  · rw [metsPrimary_none hp hst]; exact hcoll
  · obtain ⟨cs, f, new, hP, hdmd, _⟩ := metsPrimary_ok hp hst
    rw [hdmd, List.map_append, List.nodup_append]
    refine ⟨hcoll.sublist ((List.filter_sublist).map _), hP.ids, ?_⟩
    intro a ha b hb hab
    subst hab
    rw [List.mem_map] at ha hb
    obtain ⟨s, hs, rfl⟩ := ha
    obtain ⟨s', hs', hid⟩ := hb
    have hv : ∀ e : MEntry V, fileId x e.path ≠ x.slug m.id ++ '-' :: m.head := by
      intro e he
      have hm : m.head = inv.head := (hg.exact h).head
      have h1 : 'v' ∈ fileId x e.path := by
        rw [he, hm]
        simp [head_has_v hg]
      unfold fileId at h1
      rw [List.mem_append] at h1
      rcases h1 with h1 | h1
      · exact absurd h1 (by decide)
      · exact hu.noV _ h1
    obtain ⟨e, he, hs⟩ := mem_collected_dmd.1 (List.mem_filter.1 hs).1
    obtain ⟨_, _, hl⟩ := hP.sec s' hs'
    rcases hs with hs | hs
    · rw [(intDmd_mem hs).1] at hid
      rcases hl with ⟨hl, _⟩ | ⟨hl, _⟩
      · rw [hl] at hid; exact hv e (List.append_cancel_left hid).symm
      · rw [hl] at hid; exact int_ne_ext hid.symm
    · rw [(extDmd_mem hs).1] at hid
      rcases hl with ⟨hl, _⟩ | ⟨hl, _⟩
      · rw [hl] at hid; exact int_ne_ext hid
      · rw [hl] at hid; exact hv e (List.append_cancel_left hid).symm

theorem groupId_inj {V : Type} {x : MetsEnv V} (hu : FreshIds x) {a b : Str} (ha : a ∈ knownAreas x.areas)
    (hb : b ∈ knownAreas x.areas) (h : groupId x a = groupId x b) : a = b := by
  unfold groupId at h
  rw [if_pos ha, if_pos hb] at h
  have := hu.inj _ _ (List.append_cancel_left h)
  cases this; rfl

theorem groupId_ne_fileId {V : Type} {x : MetsEnv V} (hu : FreshIds x) {a b : Str} (ha : a ∈ knownAreas x.areas) :
    groupId x a ≠ fileId x b := by
  intro h
  unfold groupId fileId at h
  rw [if_pos ha] at h
  have := hu.inj _ _ (List.append_cancel_left h)
  cases this

theorem starts {a b : Char} {l r : Str} (h : a :: l = b :: r) (hab : a ≠ b) : False := hab (List.cons.inj h).1

/-- the identifiers of the files -/
theorem file_ids {V : Type} {inv : Inv} {n : Nat} (hg : GoodInv inv n) {x : MetsEnv V} (hu : FreshIds x)
    {exts : List (Str × Res (AMap Str V))} {m : ObjMeta V} (h : objMetadata inv exts = .ok m) {own : List Str} {st : MetsSt}
    (hst : st.files = (metsCollected x m own).files) {pn : DocNames} {sum : Str} :
    ((metsDoc x pn st sum).groups.map (·.area)).Nodup ∧
    ((metsDoc x pn st sum).groups.flatMap (fun g => g.files.map (·.id))).Nodup := by
  have hfiles : st.files = mappends [] ((metsEntries m).flatMap (entryFiles x)) := hst
  have hkn : (mkeys st.files).Nodup := by rw [hfiles]; exact mappends_nodup _ List.nodup_nil
  have hareas : ((metsDoc x pn st sum).groups.map (·.area)).Nodup := by
    have : (metsDoc x pn st sum).groups.map (·.area) = mkeys (st.files.filter (fun g => decide (g.2 ≠ []))) := by
      unfold metsDoc mkeys
      rw [List.map_map]
      rfl
    rw [this]
    exact hkn.sublist ((List.filter_sublist).map _)
  refine ⟨hareas, ?_⟩
  -- a file belongs to one group
  have hone : ∀ g ∈ (metsDoc x pn st sum).groups, ∀ f ∈ g.files, ∀ g' ∈ (metsDoc x pn st sum).groups, ∀ f' ∈ g'.files,
      f.id = f'.id → g.area = g'.area := by
    intro g hgm f hf g' hgm' f' hf' hid
    obtain ⟨e, he, _, hk, rfl⟩ := (mem_groups hst).1 ⟨g, hgm, rfl, hf⟩
    obtain ⟨e', he', _, hk', rfl⟩ := (mem_groups hst).1 ⟨g', hgm', rfl, hf'⟩
    rw [hk, hk', fileId_inj hu hid]
  refine nodup_flatMap_of (key := fun g : MGroup => g.area) hareas ?_ ?_
  · intro g hgm
    have hmem : (g.area, g.files) ∈ st.files := by
      unfold metsDoc at hgm
      rw [List.mem_map] at hgm
      obtain ⟨⟨a, l⟩, hl, rfl⟩ := hgm
      exact (List.mem_filter.1 hl).1
    have hgf := mget_mappends ((metsEntries m).flatMap (entryFiles x)) [] g.area
    rw [← hfiles, mget_of_mem hkn hmem] at hgf
    have hgf : g.files = _ := hgf
    rw [hgf]
    simp only [mget, Option.getD_none, List.nil_append]
    have hall : (((metsEntries m).flatMap (entryFiles x)).map (fun y => y.2.id)).Nodup := by
      rw [List.map_flatMap]
      refine nodup_flatMap_of (entries_nodup hg h) ?_ ?_
      · intro e _
        unfold entryFiles
        split <;> simp
      · intro a _ b _ y hya hyb
        unfold entryFiles at hya hyb
        split at hya
        · cases hya
        · split at hyb
          · cases hyb
          · simp only [List.map_cons, List.map_nil, List.mem_singleton] at hya hyb
            exact fileId_inj hu (hya.symm.trans hyb)
    rw [List.map_map]
    exact hall.sublist ((List.filter_sublist).map _)
  · intro g hgm g' hgm' y hy hy'
    rw [List.mem_map] at hy hy'
    obtain ⟨f, hf, rfl⟩ := hy
    obtain ⟨f', hf', hid⟩ := hy'
    exact hone g hgm f hf g' hgm' f' hf' hid.symm

/-- C118, no identifier is given twice -/
theorem ids_unique {V : Type} {inv : Inv} {n : Nat} (hg : GoodInv inv n) {x : MetsEnv V} (hu : FreshIds x)
    {exts : List (Str × Res (AMap Str V))} {m : ObjMeta V} (h : objMetadata inv exts = .ok m) (ho : MetaOnce x inv)
    (hk : AreasKnown x inv) {md : MetsDoc} {pd : PremisDoc} (hd : metsDocs x m = .ok (some (md, pd))) : (metsIds md).Nodup := by
  obtain ⟨mn, pn, st, _, _, _, hst, rfl, rfl⟩ := metsDocs_ok hd
  have hfiles := (metsPrimary_frame hst).1
  obtain ⟨hareas, hfids⟩ := file_ids hg hu h hfiles (pn := pn) (sum := x.sha512 (x.premisXml ⟨st.objects, st.events⟩))
  generalize hmd : metsDoc x pn st (x.sha512 (x.premisXml ⟨st.objects, st.events⟩)) = md at hareas hfids
  have hdmd : md.dmd = st.dmd := by rw [← hmd]; rfl
  have hamd : md.amd.map (·.id) =
      ["amdSec-int-uuid-".toList ++ x.uuid .premisInt, "amdSec-ext-uuid-".toList ++ x.uuid .premisExt] := by rw [← hmd]; rfl
  have hgid : ∀ g ∈ md.groups, g.id = groupId x g.area ∧ g.area ∈ knownAreas x.areas := by
    intro g hgm
    have hgm0 := hgm
    rw [← hmd] at hgm
    unfold metsDoc at hgm
    rw [List.mem_map] at hgm
    obtain ⟨⟨a, l⟩, hl, rfl⟩ := hgm
    refine ⟨rfl, ?_⟩
    have hl2 := (List.mem_filter.1 hl).2
    rw [decide_eq_true_eq] at hl2
    obtain ⟨f, hf⟩ := List.exists_mem_of_ne_nil _ hl2
    rw [← hmd] at hgm0
    obtain ⟨e, he, _, hk', _⟩ := (mem_groups hfiles).1 ⟨_, hgm0, rfl, hf⟩
    have hk' : a = areaKey (extArea x.areas e.path) := hk'
    rw [hk']
    exact hk _ _ (entry_hasFile hg h he).1
  have hfid : ∀ y ∈ md.groups.flatMap (fun g => g.files.map (·.id)), ∃ q, y = fileId x q := by
    intro y hy
    rw [List.mem_flatMap] at hy
    obtain ⟨g, hgm, hy⟩ := hy
    rw [List.mem_map] at hy
    obtain ⟨f, hf, rfl⟩ := hy
    rw [← hmd] at hgm
    obtain ⟨e, he, _, _, rfl⟩ := (mem_groups hfiles).1 ⟨g, hgm, rfl, hf⟩
    exact ⟨e.path, rfl⟩
  have hdid : ∀ y ∈ md.dmd.map (·.id), ∃ l, y = 'd' :: l := by
    intro y hy
    rw [List.mem_map] at hy
    obtain ⟨s, hs, rfl⟩ := hy
    rw [hdmd] at hs
    have hc : ∀ s ∈ (metsCollected x m [mn.ext, pn.ext]).dmd, ∃ l, s.id = 'd' :: l := by
      intro s hs
      obtain ⟨e, _, hs⟩ := mem_collected_dmd.1 hs
      rcases hs with hs | hs
      · exact ⟨_, (intDmd_mem hs).1⟩
      · exact ⟨_, (extDmd_mem hs).1⟩
    by_cases hp : x.cfg.primary = []
    · rw [metsPrimary_none hp hst] at hs; exact hc s hs
    · obtain ⟨cs, f, new, hP, hdmd, _⟩ := metsPrimary_ok hp hst
      rw [hdmd, List.mem_append] at hs
      rcases hs with hs | hs
      · exact hc s (List.mem_filter.1 hs).1
      · obtain ⟨_, _, hl⟩ := hP.sec s hs
        rcases hl with ⟨hl, _⟩ | ⟨hl, _⟩ <;> exact ⟨_, hl⟩
  have haid : ∀ y ∈ md.amd.map (·.id), ∃ l, y = 'a' :: l := by
    intro y hy
    rw [hamd] at hy
    simp only [List.mem_cons, List.not_mem_nil, or_false] at hy
    rcases hy with rfl | rfl <;> exact ⟨_, rfl⟩
  have hgs : ∀ y ∈ md.groups.map (·.id), ∃ a ∈ knownAreas x.areas, y = groupId x a := by
    intro y hy
    rw [List.mem_map] at hy
    obtain ⟨g, hgm, rfl⟩ := hy
    exact ⟨g.area, (hgid g hgm).2, (hgid g hgm).1⟩
  have hgroups : (md.groups.map (·.id)).Nodup := by
    rw [List.nodup_iff_pairwise_ne, List.pairwise_map]
    have : md.groups.Pairwise (fun a b => a.area ≠ b.area) := by
      have : (md.groups.map (·.area)).Pairwise (· ≠ ·) := hareas
      rwa [List.pairwise_map] at this
    refine this.imp_of_mem ?_
    intro a b ha hb hab hid
    rw [(hgid a ha).1, (hgid b hb).1] at hid
    exact hab (groupId_inj hu (hgid a ha).2 (hgid b hb).2 hid)
  unfold metsIds
  refine List.nodup_append.2 ⟨by rw [hdmd]; exact dmd_ids hg hu h ho hst, List.nodup_append.2 ⟨?_, List.nodup_append.2
    ⟨hgroups, hfids, ?_⟩, ?_⟩, ?_⟩
  · rw [hamd]
    simp only [List.nodup_cons, List.mem_singleton, List.not_mem_nil, not_false_eq_true, List.nodup_nil, and_true]
    exact fun h => ext_ne_int h
  · intro a ha b hb hab
    obtain ⟨k, hk, rfl⟩ := hgs a ha
    obtain ⟨q, rfl⟩ := hfid b hb
    exact groupId_ne_fileId hu hk hab
  · intro a ha b hb hab
    obtain ⟨l, rfl⟩ := haid a ha
    rcases List.mem_append.1 hb with hb | hb
    · obtain ⟨k, _, rfl⟩ := hgs b hb
      exact starts (a := 'a') (b := 'u') hab (by decide)
    · obtain ⟨q, rfl⟩ := hfid b hb
      exact starts (a := 'a') (b := 'u') hab (by decide)
  · intro a ha b hb hab
    obtain ⟨l, rfl⟩ := hdid a ha
    rcases List.mem_append.1 hb with hb | hb
    · obtain ⟨l', rfl⟩ := haid b hb
      exact starts hab (by decide)
    · rcases List.mem_append.1 hb with hb | hb
      · obtain ⟨k, _, rfl⟩ := hgs b hb
        exact starts (a := 'd') (b := 'u') hab (by decide)
      · obtain ⟨q, rfl⟩ := hfid b hb
        exact starts (a := 'd') (b := 'u') hab (by decide)

/-- the pointers of the structural map -/
theorem mem_struct {V : Type} {x : MetsEnv V} {m : ObjMeta V} {own : List Str} {st : MetsSt}
    (hst : metsPrimary x m (metsCollected x m own) = .ok st) {pn : DocNames} {sum a u : Str} :
    (∃ us, (a, us) ∈ (metsDoc x pn st sum).struct ∧ u ∈ us) ↔
      (∃ e ∈ metsEntries m, (a, u) ∈ entryStruct x e) ∨
      (a = "metadata".toList ∧ ((x.cfg.primary ≠ [] ∧ ∃ s ∈ st.dmd, s.id = u) ∨
        ∃ s ∈ (metsDoc x pn st sum).amd, s.id = u)) := by
  have hstr : st.struct = mappends [] ((metsEntries m).flatMap (entryStruct x) ++
      if x.cfg.primary = [] then [] else st.dmd.map (fun s => ("metadata".toList, s.id))) := by
    by_cases hp : x.cfg.primary = []
    · rw [metsPrimary_none hp hst, if_pos hp, List.append_nil]; rfl
    · obtain ⟨_, _, _, _, _, h, _⟩ := metsPrimary_ok hp hst
      rw [h, if_neg hp, mappends_append]; rfl
  have hall : ∃ i e, (metsDoc x pn st sum).amd = [i, e] ∧ (metsDoc x pn st sum).struct =
      (mappends [] (((metsEntries m).flatMap (entryStruct x) ++
        if x.cfg.primary = [] then [] else st.dmd.map (fun s => ("metadata".toList, s.id))) ++
          [("metadata".toList, i.id), ("metadata".toList, e.id)])).filter (fun g => decide (g.2 ≠ [])) := by
    refine ⟨_, _, rfl, ?_⟩
    rw [mappends_append, ← hstr]; rfl
  obtain ⟨i, e, h1, h2⟩ := hall
  rw [h1, h2]
  have : (∃ us, (a, us) ∈ (mappends [] (((metsEntries m).flatMap (entryStruct x) ++
        if x.cfg.primary = [] then [] else st.dmd.map (fun s => ("metadata".toList, s.id))) ++
          [("metadata".toList, i.id), ("metadata".toList, e.id)])).filter (fun g => decide (g.2 ≠ [])) ∧ u ∈ us) ↔
      (a, u) ∈ (((metsEntries m).flatMap (entryStruct x) ++
        if x.cfg.primary = [] then [] else st.dmd.map (fun s => ("metadata".toList, s.id))) ++
          [("metadata".toList, i.id), ("metadata".toList, e.id)]) := by
    rw [← mem_mappends]
    constructor
    · rintro ⟨us, h, hu⟩; exact ⟨us, (List.mem_filter.1 h).1, hu⟩
    · rintro ⟨us, h, hu⟩
      refine ⟨us, List.mem_filter.2 ⟨h, ?_⟩, hu⟩
      rw [decide_eq_true_eq]
      rintro rfl
      cases hu
  rw [this, List.mem_append, List.mem_append, List.mem_flatMap, or_assoc]
  refine or_congr Iff.rfl ?_
  by_cases hp : x.cfg.primary = []
  · rw [if_pos hp]
    simp only [List.not_mem_nil, false_or, List.mem_cons, Prod.mk.injEq, or_false, ne_eq, hp, not_true_eq_false, false_and]
    constructor
    · rintro (⟨rfl, rfl⟩ | ⟨rfl, rfl⟩)
      · exact ⟨rfl, i, Or.inl rfl, rfl⟩
      · exact ⟨rfl, e, Or.inr rfl, rfl⟩
    · rintro ⟨rfl, s, rfl | rfl, rfl⟩
      · exact Or.inl ⟨rfl, rfl⟩
      · exact Or.inr ⟨rfl, rfl⟩
  · rw [if_neg hp]
    simp only [List.mem_map, List.mem_cons, Prod.mk.injEq, List.not_mem_nil, or_false, ne_eq, hp, not_false_eq_true, true_and]
    constructor
    · rintro (⟨s, hs, rfl, rfl⟩ | ⟨rfl, rfl⟩ | ⟨rfl, rfl⟩)
      · exact ⟨rfl, Or.inl ⟨s, hs, rfl⟩⟩
      · exact ⟨rfl, Or.inr ⟨i, Or.inl rfl, rfl⟩⟩
      · exact ⟨rfl, Or.inr ⟨e, Or.inr rfl, rfl⟩⟩
    · rintro ⟨rfl, ⟨s, hs, rfl⟩ | ⟨s, rfl | rfl, rfl⟩⟩
      · exact Or.inl ⟨s, hs, rfl, rfl⟩
      · exact Or.inr (Or.inl ⟨rfl, rfl⟩)
      · exact Or.inr (Or.inr ⟨rfl, rfl⟩)

/-- an identifier is pointed at by a structural map -/
def MetsDoc.Pointed (md : MetsDoc) (u : Str) : Prop := ∃ a us, (a, us) ∈ md.struct ∧ u ∈ us

/-- The structure of a METS document: no identifier is given twice, each pointer leads to an element of the document, and each
file and section is reached. -/
structure StructureOk (md : MetsDoc) : Prop where
  unique : (metsIds md).Nodup
  resolve : ∀ u, md.Pointed u → u ∈ metsIds md
  files : ∀ g ∈ md.groups, ∀ f ∈ g.files, md.Pointed f.id
  sections : ∀ s ∈ md.dmd ++ md.amd, md.Pointed s.id

theorem mem_fileIds {md : MetsDoc} {g : MGroup} {f : MFile} (hg : g ∈ md.groups) (hf : f ∈ g.files) : f.id ∈ metsIds md := by
  unfold metsIds
  simp only [List.mem_append, List.mem_flatMap, List.mem_map]
  exact Or.inr (Or.inr (Or.inr ⟨g, hg, f, hf, rfl⟩))

/-- **C118, in full.** -/
def C118_full : Prop :=
  ∀ (V : Type) (inv : Inv) (n : Nat) (x : MetsEnv V) (exts : List (Str × Res (AMap Str V))) (m : ObjMeta V) (md : MetsDoc)
    (pd : PremisDoc), GoodInv inv n → FreshIds x → objMetadata inv exts = .ok m → metsDocs x m = .ok (some (md, pd)) →
    StructureOk md

/-- **C118, pointers lead to elements, and files are reached.** -/
theorem C118_pointers_partial {V : Type} {inv : Inv} {n : Nat} (hg : GoodInv inv n) {x : MetsEnv V}
    {exts : List (Str × Res (AMap Str V))} {m : ObjMeta V} (h : objMetadata inv exts = .ok m) (ha : AreasAgree x inv)
    {md : MetsDoc} {pd : PremisDoc} (hd : metsDocs x m = .ok (some (md, pd))) :
    (∀ u, md.Pointed u → u ∈ metsIds md) ∧ (∀ g ∈ md.groups, ∀ f ∈ g.files, md.Pointed f.id) ∧
    (∀ s ∈ md.amd, md.Pointed s.id) ∧ (x.cfg.primary ≠ [] → ∀ s ∈ md.dmd, md.Pointed s.id) := by
  obtain ⟨mn, pn, st, _, _, hint, hst, rfl, rfl⟩ := metsDocs_ok hd
  have hfiles := (metsPrimary_frame hst).1
  generalize hsum : x.sha512 (x.premisXml ⟨st.objects, st.events⟩) = sum
  refine ⟨?_, ?_, ?_, ?_⟩
  · rintro u ⟨a, us, hau⟩
    rcases (mem_struct hst).1 ⟨us, hau⟩ with ⟨e, he, hs⟩ | ⟨_, ⟨_, s, hs, rfl⟩ | ⟨s, hs, rfl⟩⟩
    · unfold entryStruct intStruct at hs
      rw [List.mem_map] at hs
      obtain ⟨p, hp, hs⟩ := hs
      cases hs
      rw [List.mem_filter, decide_eq_true_eq] at hp
      obtain ⟨hH, hM⟩ := entry_hasFile hg h he
      have hm : ¬ isMeta (extArea x.areas e.path) := fun hh => hp.2 ((ha _ _ _ _ hH hM hp.1).2 hh)
      obtain ⟨g, hgm, _, hf⟩ := (mem_groups hfiles (pn := pn) (sum := sum) (k := areaKey (extArea x.areas e.path))).2
        ⟨e, he, hm, rfl, rfl⟩
      exact mem_fileIds hgm hf
    · unfold metsIds
      exact List.mem_append_left _ (List.mem_map.2 ⟨s, hs, rfl⟩)
    · unfold metsIds
      exact List.mem_append_right _ (List.mem_append_left _ (List.mem_map.2 ⟨s, hs, rfl⟩))
  · intro g hgm f hf
    obtain ⟨e, he, hm, _, rfl⟩ := (mem_groups hfiles).1 ⟨g, hgm, rfl, hf⟩
    obtain ⟨hH, hM⟩ := entry_hasFile hg h he
    have hne := hg.refs.2 _ _ (mem_of_mget hM)
    obtain ⟨p, hp⟩ := List.exists_mem_of_ne_nil _ hne
    have hpm : ¬ intMeta x.areas p := fun hh => hm ((ha _ _ _ _ hH hM hp).1 hh)
    refine ⟨intKey x.areas p, ?_⟩
    refine (mem_struct hst).2 (Or.inl ⟨e, he, ?_⟩)
    unfold entryStruct intStruct
    exact List.mem_map.2 ⟨p, List.mem_filter.2 ⟨hp, by simpa using hpm⟩, rfl⟩
  · intro s hs
    exact ⟨"metadata".toList, (mem_struct hst).2 (Or.inr ⟨rfl, Or.inr ⟨s, hs, rfl⟩⟩)⟩
  · intro hp s hs
    exact ⟨"metadata".toList, (mem_struct hst).2 (Or.inr ⟨rfl, Or.inl ⟨hp, s, hs, rfl⟩⟩)⟩

/-- **C118.**  Where each content is stored in the area its files are in, at most once as metadata, all areas are known
beforehand and the primary metadata is given, the identifiers and pointers of the document are right. -/
theorem C118_structure_partial {V : Type} {inv : Inv} {n : Nat} (hg : GoodInv inv n) {x : MetsEnv V} (hu : FreshIds x)
    {exts : List (Str × Res (AMap Str V))} {m : ObjMeta V} (h : objMetadata inv exts = .ok m) (ha : AreasAgree x inv)
    (ho : MetaOnce x inv) (hk : AreasKnown x inv) (hp : x.cfg.primary ≠ []) {md : MetsDoc} {pd : PremisDoc}
    (hd : metsDocs x m = .ok (some (md, pd))) : StructureOk md := by
  obtain ⟨h1, h2, h3, h4⟩ := C118_pointers_partial hg h ha hd
  refine ⟨ids_unique hg hu h ho hk hd, h1, h2, ?_⟩
  intro s hs
  rcases List.mem_append.1 hs with hs | hs
  · exact h4 hp s hs
  · exact h3 s hs

end Gocfl
