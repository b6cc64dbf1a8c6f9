import Verif.Props.MetsEx

/-!
# C116: the METS and PREMIS documents are stored with the version

C117 as well, for the version as it is stored.
-/

namespace Gocfl

/-! ## What adding a file does not touch -/

theorem addName_others {inv inv' : Inv} {n : Nat} {mp d p : Str} (hg : GapFree inv n) (h : addName inv mp d p = .ok inv')
    {q : Str} (hq : q ≠ p) (e : Str) : HasFile inv' inv.head q e ↔ HasFile inv inv.head q e := by
  obtain ⟨s, dup, upd, hs, _, _, hs', _, _, _, hh⟩ := addName_ok h
  rw [hasFile_head hg.nodup hs, ← hh.head, hasFile_head (hh.nodup hg.nodup) hs', inSt_stAddName]
  constructor
  · rintro (⟨h, _⟩ | ⟨_, h, _⟩)
    · exact h
    · exact absurd h hq
  · intro h
    exact Or.inl ⟨h, fun _ => hq⟩

theorem addFile_others {inv inv' : Inv} {n : Nat} {ns : List Str} {mp : Str} {cs : AMap Str Str} (hg : GapFree inv n)
    (h : addFile inv ns mp cs = .ok inv') {q : Str} (hq : q ∉ ns) (e : Str) :
    HasFile inv' inv.head q e ↔ HasFile inv inv.head q e := by
  obtain ⟨dig, _, h⟩ := addFile_ok h
  obtain ⟨f1, f2, _, _, f5⟩ := addFixity_fold inv mp cs
  have key := foldlM_inv (P := fun i => GapFree i n ∧ i.head = inv.head ∧
    (HasFile i inv.head q e ↔ HasFile inv inv.head q e)) (l := ns) (f := fun i n => addName i mp (toLower dig) n) (by
      rintro i p i' hp ⟨g1, g2, g3⟩ hi
      have hh := addName_headOnly hi
      refine ⟨hh.gapFree g1, hh.head.trans g2, ?_⟩
      rw [← g3, ← g2]
      exact addName_others g1 hi (fun (he : q = p) => hq (by rw [he]; exact hp)) e) _ _ ⟨f5.gapFree hg, f2, by
        unfold HasFile; rw [f1]⟩ h
  exact key.2.2

theorem copyFile_others {inv inv' : Inv} {n : Nat} {dest d : Str} (hg : GapFree inv n) (h : copyFile inv dest d = .ok inv')
    {q : Str} (hq : q ≠ dest) (e : Str) : HasFile inv' inv.head q e ↔ HasFile inv inv.head q e := by
  have hh := copyFile_headOnly h
  obtain ⟨_, s, hs, ⟨_, he⟩ | ⟨_, he⟩⟩ := copyFile_ok h
  · rw [he]
  · have hs' : headState inv' = .ok (stAppend s d dest) := by rw [he]; exact headState_set_modified hs _ _
    rw [hasFile_head hg.nodup hs, ← hh.head, hasFile_head (hh.nodup hg.nodup) hs', inSt_stAppend]
    constructor
    · rintro (h | ⟨h, _⟩)
      · exact h
      · exact absurd h hq
    · exact Or.inl

/-- `o'` results from `o` by changes of logical paths of the head with `Q`, and writes to paths with `P`. -/
structure Within (o o' : Obj) (Q P : Str → Prop) : Prop where
  inv : HeadOnly o.inv o'.inv
  files : ∀ q, ¬ Q q → ∀ e, HasFile o'.inv o.inv.head q e ↔ HasFile o.inv o.inv.head q e
  trace : ∃ t, o'.trace = o.trace ++ t ∧ ∀ op ∈ t, P op.path

theorem Within.refl {o o' : Obj} {Q P : Str → Prop} (hi : o'.inv = o.inv) (ht : o'.trace = o.trace) : Within o o' Q P := by
  refine ⟨by rw [hi]; exact HeadOnly.refl _, fun q _ e => by rw [hi], [], by rw [ht]; simp, ?_⟩
  intro op h; cases h

theorem Within.trans {a b c : Obj} {Q P : Str → Prop} (h : Within a b Q P) (h' : Within b c Q P) : Within a c Q P := by
  refine ⟨h.inv.trans h'.inv, ?_, ?_⟩
  · intro q hq e
    have := h'.files q hq e
    rw [h.inv.head] at this
    rw [this, h.files q hq e]
  · obtain ⟨t, h1, h2⟩ := h.trace
    obtain ⟨t', h3, h4⟩ := h'.trace
    refine ⟨t ++ t', by rw [h3, h1, List.append_assoc], ?_⟩
    intro op hop
    rcases List.mem_append.1 hop with hop | hop
    · exact h2 op hop
    · exact h4 op hop

theorem Within.mono {a b : Obj} {Q Q' P P' : Str → Prop} (h : Within a b Q P) (hQ : ∀ q, Q q → Q' q) (hP : ∀ p, P p → P' p) :
    Within a b Q' P' := by
  obtain ⟨t, h1, h2⟩ := h.trace
  exact ⟨h.inv, fun q hq => h.files q (fun hh => hq (hQ q hh)), t, h1, fun op ho => hP _ (h2 op ho)⟩

theorem addReader_within {w : World} {o : Obj} {n : Nat} {names : List Str} {mp : Str} {data : Bytes} (hg : GapFree o.inv n) :
    Within o (addReader w o names mp data).obj (· ∈ names) (· = mp) := by
  unfold addReader
  simp only
  split
  · refine ⟨HeadOnly.refl _, fun _ _ _ => Iff.rfl, [.create mp], rfl, ?_⟩
    intro op hop
    rw [List.mem_singleton.1 hop]; rfl
  · rename_i cs _
    have ht : ∀ op ∈ writeFile mp data, op.path = mp := by
      intro op hop
      simp only [writeFile, List.mem_cons, List.not_mem_nil, or_false] at hop
      rcases hop with rfl | rfl <;> rfl
    unfold withInv
    cases hf : addFile o.inv names mp cs with
    | error e => exact ⟨HeadOnly.refl _, fun _ _ _ => Iff.rfl, _, rfl, ht⟩
    | ok i => exact ⟨addFile_headOnly hf, fun q hq e => addFile_others hg hf hq e, _, rfl, ht⟩

theorem objAdd_within {w : World} {o : Obj} {n : Nat} {p area : Str} {data : Bytes} {c : Bool} (hg : GapFree o.inv n) :
    Within o (objAdd w o p area data c).obj (fun q => w.statePath p area = .ok q)
      (fun f => ∃ i, w.manifestPath p area = .ok i ∧ f = buildManifestName o.inv i) := by
  unfold objAdd
  split
  · exact Within.refl rfl rfl
  · split
    · exact Within.refl rfl rfl
    · rename_i names mp hb
      obtain ⟨h1, i, hi, hmp⟩ := buildNames_ok hb
      obtain ⟨q, hq, hn⟩ : ∃ q, w.statePath p area = .ok q ∧ names = [q] := by
        rw [List.mapM_cons] at h1
        obtain ⟨q, hq, h1⟩ := res_bind_eq_ok.1 h1
        refine ⟨q, hq, ?_⟩
        cases h1; rfl
      subst hn
      have hi : w.manifestPath p area = .ok i := hi
      have hread : ∀ o1 : Obj, o1.inv = o.inv → o1.trace = o.trace → Within o (addReader w o1 [q] mp data).obj
          (fun q => w.statePath p area = .ok q) (fun f => ∃ i, w.manifestPath p area = .ok i ∧ f = buildManifestName o.inv i) := by
        intro o1 e1 e2
        refine (Within.refl e1 e2).trans ((addReader_within (by rw [e1]; exact hg)).mono ?_ ?_)
        · intro q' hq'
          rw [List.mem_singleton.1 hq']; exact hq
        · intro f hf
          exact ⟨i, hi, hf.trans hmp⟩
      simp only
      split
      · split
        · exact Within.refl rfl rfl
        · rename_i h _
          unfold addChecked
          split
          · exact Within.refl rfl rfl
          · exact Within.refl rfl rfl
          · split
            · unfold withInv
              simp only [List.headD_cons]
              cases hf : copyFile o.inv q (h data) with
              | error e => exact Within.refl rfl rfl
              | ok i' =>
                refine ⟨copyFile_headOnly hf, ?_, [], by simp, by intro op h; cases h⟩
                intro q' hq' e
                refine copyFile_others hg hf ?_ e
                rintro rfl
                exact hq' hq
            · exact hread _ rfl rfl
      · exact hread _ rfl rfl

/-- adding without a look at duplicates is adding from a reader -/
theorem objAdd_reader {w : World} {o : Obj} {p area : Str} {data : Bytes} (h : (objAdd w o p area data false).err = none) :
    ∃ o1, o1.inv = o.inv ∧ o1.trace = o.trace ∧ objAdd w o p area data false = objAddReader w o1 [p] area data := by
  unfold objAdd at h ⊢
  split at h
  · cases h
  · rename_i hwr
    rw [if_neg hwr]
    cases hb : buildNames w o.inv [p] area with
    | error e => rw [hb] at h; cases h
    | ok y =>
      obtain ⟨names, mp⟩ := y
      refine ⟨{ o with updateFiles := o.updateFiles ++ [names.headD []] }, rfl, rfl, ?_⟩
      unfold objAddReader
      rw [if_neg (by simp)]
      have hwr' : ¬ ({ o with updateFiles := o.updateFiles ++ [names.headD []] } : Obj).inv.writeable = false := hwr
      rw [if_neg hwr']
      simp only [hb, Bool.false_eq_true, if_false]

theorem objAddReader_within {w : World} {o : Obj} {n : Nat} {p area : Str} {data : Bytes} (hg : GapFree o.inv n) :
    Within o (objAddReader w o [p] area data).obj (fun q => w.statePath p area = .ok q)
      (fun f => ∃ i, w.manifestPath p area = .ok i ∧ f = buildManifestName o.inv i) := by
  unfold objAddReader
  split
  · exact Within.refl rfl rfl
  · split
    · exact Within.refl rfl rfl
    · split
      · exact Within.refl rfl rfl
      · rename_i names mp hb
        obtain ⟨h1, i, hi, hmp⟩ := buildNames_ok hb
        refine (addReader_within hg).mono ?_ ?_
        · intro q' hq'
          rw [List.mapM_cons] at h1
          obtain ⟨q, hq, h1⟩ := res_bind_eq_ok.1 h1
          cases h1
          rw [List.mem_singleton.1 hq']; exact hq
        · intro f hf
          exact ⟨i, hi, hf.trans hmp⟩

theorem addSchemas_within {w : World} {n : Nat} {area : Str} {ss : List (Str × Bytes)} : ∀ {o : Obj}, GapFree o.inv n →
    Within o (addSchemas w area ss o).obj (fun q => ∃ s ∈ ss, w.statePath s.1 area = .ok q)
      (fun f => ∃ s ∈ ss, ∃ i, w.manifestPath s.1 area = .ok i ∧ f = buildManifestName o.inv i) := by
  induction ss with
  | nil => intro o _; exact Within.refl rfl rfl
  | cons s ss ih =>
    intro o hg
    have h1 := (objAdd_within (w := w) (o := o) (p := s.1) (area := area) (data := s.2) (c := true) hg).mono
      (Q' := fun q => ∃ s' ∈ s :: ss, w.statePath s'.1 area = .ok q)
      (P' := fun f => ∃ s' ∈ s :: ss, ∃ i, w.manifestPath s'.1 area = .ok i ∧ f = buildManifestName o.inv i)
      (fun q hq => ⟨s, by simp, hq⟩) (fun f hf => ⟨s, by simp, hf⟩)
    refine andThen_good (P := fun o' => Within o o' _ _) (x := objAdd w o s.1 area s.2 true) h1 ?_
    intro _
    have hb : ∀ i, buildManifestName (objAdd w o s.1 area s.2 true).obj.inv i = buildManifestName o.inv i := by
      intro i
      unfold buildManifestName buildManifestNameVersion Inv.contentDir
      rw [h1.inv.head, h1.inv.cdir]
    refine h1.trans ((ih (h1.inv.gapFree hg)).mono ?_ ?_)
    · rintro q ⟨s', hs', h⟩; exact ⟨s', by simp [hs'], h⟩
    · rintro f ⟨s', hs', i, h, rfl⟩; exact ⟨s', by simp [hs'], i, h, hb i⟩

/-! ## C116 -/

/-- a content is in a file that is written -/
def Holds (o : Obj) (b : Bytes) : Prop := ∃ p, ∀ fs, mget (applyOps fs o.trace) p = some b

/-- **C116, in full**: after an update that succeeds, with documents configured under names of their own, a METS and a PREMIS
document of the version were written. -/
def C116_full : Prop :=
  ∀ (V : Type) (x : MetsEnv V) (exts : List (Str × Res (AMap Str V))) (o : Obj) (n : Nat), GoodInv o.inv n →
    HexHash x.w → x.cfg.metsFile ≠ x.cfg.premisFile → (metsAfter x exts o).err = none →
    ∃ m md pd, objMetadata o.inv exts = .ok m ∧ metsDocs x m = .ok (some (md, pd)) ∧
      Holds (metsAfter x exts o).obj (x.metsXml md) ∧ Holds (metsAfter x exts o).obj (x.premisXml pd)

/-- the file and area a document is added as: its file in the configured area, or its path in the folder of the contents -/
inductive MetsDocAt {V : Type} (x : MetsEnv V) (file : Str) : Str × Str → Prop
  | area (h : toLower x.cfg.storageType = "area".toList) : MetsDocAt x file (file, x.cfg.storageName)
  | path (h : toLower x.cfg.storageType = "path".toList) (p : Str) (hp : x.areaPath "content".toList = .ok p) :
      MetsDocAt x file (trimLeft (pathJoin [p, x.cfg.storageName, file]) "/".toList, [])

theorem MetsDocAt.docFile {V : Type} {x : MetsEnv V} {file : Str} {f : Str × Str} (h : MetsDocAt x file f) : docFile x file = .ok f := by
  unfold Gocfl.docFile
  cases h with
  | area h => rw [if_pos h]
  | path h p hp => rw [if_neg (by rw [h]; decide), hp]; rfl

/-- where the documents and schemas go: under names that differ, each of them in the version already or in none -/
structure DocPlaces {V : Type} (x : MetsEnv V) (inv : Inv) (mf pf : Str × Str) (mq pq mi pi : Str) : Prop where
  mets : MetsDocAt x x.cfg.metsFile mf
  premis : MetsDocAt x x.cfg.premisFile pf
  metsName : x.w.statePath mf.1 mf.2 = .ok mq
  premisName : x.w.statePath pf.1 pf.2 = .ok pq
  metsPlace : x.w.manifestPath mf.1 mf.2 = .ok mi
  premisPlace : x.w.manifestPath pf.1 pf.2 = .ok pi
  names : mq ≠ pq
  places : buildManifestName inv mi ≠ buildManifestName inv pi
  schemaNames : ∀ s ∈ x.schemas, ∀ q, x.w.statePath s.1 mf.2 = .ok q → q ≠ mq ∧ q ≠ pq
  schemaPlaces : ∀ s ∈ x.schemas, ∀ i, x.w.manifestPath s.1 mf.2 = .ok i →
    buildManifestName inv i ≠ buildManifestName inv mi ∧ buildManifestName inv i ≠ buildManifestName inv pi
  fresh : ∀ t, t = mq ∨ t = pq → HasPath inv inv.head t ∨ ∀ v, ¬ HasPath inv v t

/-- the function goes on if it knows what to do with the content paths -/
theorem metsDocs_not_none {V : Type} {inv : Inv} {n : Nat} (hg : GoodInv inv n) {x : MetsEnv V}
    {exts : List (Str × Res (AMap Str V))} {m : ObjMeta V} (h : objMetadata inv exts = .ok m)
    (hc : ∀ q d ps p, HasFile inv inv.head q d → mget inv.manifest d = some ps → p ∈ ps → intArea x.areas p ≠ none) :
    metsDocs x m ≠ .ok none := by
  intro hd
  unfold metsDocs at hd
  split at hd
  · rename_i hv
    have hx := hg.exact h
    obtain ⟨ver, hver⟩ := hg.wf.1.head_version hg.pos
    have := hx.versions inv.head
    rw [hver] at this
    rw [hx.head, this] at hv
    cases hv
  · obtain ⟨mn, _, hd⟩ := res_bind_eq_ok.1 hd
    obtain ⟨pn, _, hd⟩ := res_bind_eq_ok.1 hd
    obtain ⟨r, hr, hd⟩ := res_bind_eq_ok.1 hd
    cases r with
    | none =>
      obtain ⟨e, he, p, hp, hpa⟩ := metsFiles_none hr
      obtain ⟨hH, hM⟩ := entry_hasFile hg h he
      exact hc _ _ _ _ hH hM hp hpa
    | some st =>
      obtain ⟨st', _, hd⟩ := res_bind_eq_ok.1 hd
      cases hd

theorem written_last {fs : FS} {t t1 t2 : List FsOp} {p : Str} {b : Bytes} (ht : t = t1 ++ (writeFile p b ++ t2))
    (h : ∀ op ∈ t2, op.path ≠ p) : mget (applyOps fs t) p = some b := by
  rw [ht, applyOps_append, applyOps_append, mget_applyOps_ne h, mget_writeFile]

/-- **C116.**  With the storage types `area` and `path`, names of their own for the documents and schemas, and content paths
of the form the function expects, an update that succeeds stores both documents: the version has them under their names with
their digests, their contents were written to the places of these names, and other files are as before. -/
theorem C116_stored_partial {V : Type} {x : MetsEnv V} {exts : List (Str × Res (AMap Str V))} {o : Obj} {n : Nat}
    (hg : GoodInv o.inv n) (hx : HexHash x.w) (hs : toLower x.cfg.storageType ≠ "extension".toList)
    (hc : ∀ q d ps p, HasFile o.inv o.inv.head q d → mget o.inv.manifest d = some ps → p ∈ ps → intArea x.areas p ≠ none)
    {mf pf : Str × Str} {mq pq mi pi : Str} (hp : DocPlaces x o.inv mf pf mq pq mi pi)
    (h : (metsAfter x exts o).err = none) :
    ∃ m md pd hf, objMetadata o.inv exts = .ok m ∧ metsDocs x m = .ok (some (md, pd)) ∧
      x.w.hash o.inv.digestAlg = some hf ∧
      (∀ e, HasFile (metsAfter x exts o).obj.inv o.inv.head mq e ↔ e = toLower (hf (x.metsXml md))) ∧
      (∀ e, HasFile (metsAfter x exts o).obj.inv o.inv.head pq e ↔ e = toLower (hf (x.premisXml pd))) ∧
      (∀ fs, mget (applyOps fs (metsAfter x exts o).obj.trace) (buildManifestName o.inv mi) = some (x.metsXml md)) ∧
      (∀ fs, mget (applyOps fs (metsAfter x exts o).obj.trace) (buildManifestName o.inv pi) = some (x.premisXml pd)) ∧
      (∀ q, q ≠ mq → q ≠ pq → (∀ s ∈ x.schemas, x.w.statePath s.1 mf.2 ≠ .ok q) →
        ∀ e, HasFile (metsAfter x exts o).obj.inv o.inv.head q e ↔ HasFile o.inv o.inv.head q e) := by
  unfold metsAfter at h ⊢
  cases hr : objMetadata o.inv exts >>= fun m => metsDocs x m with
  | error e => rw [hr] at h; cases h
  | ok r =>
    rw [hr] at h
    obtain ⟨m, hm, hd⟩ := res_bind_eq_ok.1 hr
    cases r with
    | none => exact absurd hd (metsDocs_not_none hg hm hc)
    | some r =>
      obtain ⟨md, pd⟩ := r
      simp only at h ⊢
      unfold metsStore at h ⊢
      rw [if_neg hs] at h ⊢
      simp only [hp.mets.docFile, hp.premis.docFile] at h ⊢
      -- the METS document
      obtain ⟨e1, h⟩ := andThen_err_none h |>.imp id (fun _ => h)
      rw [andThen_none e1] at h ⊢
      obtain ⟨o1, i1, t1, hadd⟩ := objAdd_reader e1
      generalize hO : (objAdd x.w o mf.1 mf.2 (x.metsXml md) false).obj = O at h ⊢
      have hO' : O = (objAddReader x.w o1 [mf.1] mf.2 (x.metsXml md)).obj := by rw [← hO, hadd]
      have e1' : (objAddReader x.w o1 [mf.1] mf.2 (x.metsXml md)).err = none := by rw [← hadd]; exact e1
      have w1 : Within o O _ _ := hO ▸ objAdd_within (w := x.w) (o := o) (p := mf.1) (area := mf.2) (data := x.metsXml md)
        (c := false) hg.wf.1
      obtain ⟨hf, hhf, one1, f1, _⟩ := objAddReader_files (w := x.w) (o := o1) (n := n) (by rw [i1]; exact hg.wf.1) hg.pos
        (by rw [i1]; exact hg.one) hx (ts := [mq]) (by
          rw [List.mapM_cons, hp.metsName]; rfl) (by
          intro t ht
          rw [List.mem_singleton.1 ht, i1]
          exact hp.fresh mq (Or.inl rfl)) e1'
      rw [i1] at hhf f1
      rw [← hO'] at f1 one1
      obtain ⟨mi', hmi', tr1, _⟩ := objAddReader_one e1'
      rw [hp.metsPlace] at hmi'; cases hmi'
      rw [← hO', t1, i1] at tr1
      have g1 := w1.inv.gapFree hg.wf.1
      -- the PREMIS document
      obtain ⟨e2, h⟩ := andThen_err_none h |>.imp id (fun _ => h)
      rw [andThen_none e2] at h ⊢
      generalize hP : (objAddReader x.w O [pf.1] pf.2 (x.premisXml pd)).obj = P at h ⊢
      have w2 : Within O P _ _ := hP ▸ objAddReader_within (w := x.w) (o := O) (p := pf.1) (area := pf.2)
        (data := x.premisXml pd) g1
      have hother : ∀ q, q ≠ mq → ∀ e, HasFile O.inv o.inv.head q e ↔ HasFile o.inv o.inv.head q e := by
        intro q hq e
        refine w1.files q (fun hh => hq ?_) e
        rw [hp.metsName] at hh; cases hh; rfl
      obtain ⟨hf2, hhf2, _, f2, _⟩ := objAddReader_files (w := x.w) (o := O) (n := n) g1 hg.pos one1 hx (ts := [pq]) (by
          rw [List.mapM_cons, hp.premisName]; rfl) (by
          intro t ht
          rw [List.mem_singleton.1 ht, w1.inv.head]
          rcases hp.fresh pq (Or.inr rfl) with ⟨e, he⟩ | hn
          · exact Or.inl ⟨e, (hother pq (fun h => hp.names h.symm) e).2 he⟩
          · right
            rintro v ⟨e, he⟩
            by_cases hv : v = o.inv.head
            · rw [hv] at he
              exact hn _ ⟨e, (hother pq (fun h => hp.names h.symm) e).1 he⟩
            · exact hn v ⟨e, (w1.inv.hasFile_other hg.wf.1.nodup hv).1 he⟩) e2
      rw [w1.inv.alg, hhf] at hhf2
      cases hhf2
      rw [hP, w1.inv.head] at f2
      obtain ⟨pi', hpi', tr2, _⟩ := objAddReader_one e2
      rw [hp.premisPlace] at hpi'; cases hpi'
      have hb : ∀ (O : Obj) i, HeadOnly o.inv O.inv → buildManifestName O.inv i = buildManifestName o.inv i := by
        intro O i hh
        unfold buildManifestName buildManifestNameVersion Inv.contentDir
        rw [hh.head, hh.cdir]
      rw [hP, tr1, hb O _ w1.inv, List.append_assoc] at tr2
      have h2 := w1.inv.trans w2.inv
      -- the schemas
      have w3 := addSchemas_within (w := x.w) (area := mf.2) (ss := x.schemas) (o := P) (h2.gapFree hg.wf.1)
      generalize hS : (addSchemas x.w mf.2 x.schemas P) = S at h w3 ⊢
      have k3 : ∀ q, (∀ s ∈ x.schemas, x.w.statePath s.1 mf.2 ≠ .ok q) → ∀ e,
          HasFile S.obj.inv o.inv.head q e ↔ HasFile P.inv o.inv.head q e := by
        intro q hq e
        have := w3.files q (by rintro ⟨s, hs, h⟩; exact hq s hs h) e
        rwa [h2.head] at this
      have k2 : ∀ q, q ≠ pq → ∀ e, HasFile P.inv o.inv.head q e ↔ HasFile O.inv o.inv.head q e := by
        intro q hq e
        have := w2.files q (fun hh => hq (by rw [hp.premisName] at hh; cases hh; rfl)) e
        rwa [w1.inv.head] at this
      obtain ⟨t3, tr3, p3⟩ := w3.trace
      rw [tr2] at tr3
      refine ⟨m, md, pd, hf, hm, hd, hhf, ?_, ?_, ?_, ?_, ?_⟩
      · intro e
        rw [k3 mq (fun s hs hh => (hp.schemaNames s hs mq hh).1 rfl), k2 mq hp.names]
        exact f1 mq (by simp) e
      · intro e
        rw [k3 pq (fun s hs hh => (hp.schemaNames s hs pq hh).2 rfl)]
        exact f2 pq (by simp) e
      · intro fs
        refine written_last (t1 := o.trace) (t2 := writeFile (buildManifestName o.inv pi) (x.premisXml pd) ++ t3)
          (by rw [tr3]; simp [List.append_assoc]) ?_
        intro op hop
        rcases List.mem_append.1 hop with hop | hop
        · simp only [writeFile, List.mem_cons, List.not_mem_nil, or_false] at hop
          rcases hop with rfl | rfl <;> exact fun hh => hp.places hh.symm
        · obtain ⟨s, hs, i, hi, he⟩ := p3 op hop
          rw [he, hb P i h2]
          exact (hp.schemaPlaces s hs i hi).1
      · intro fs
        refine written_last (t1 := o.trace ++ writeFile (buildManifestName o.inv mi) (x.metsXml md)) (t2 := t3)
          (by rw [tr3]; simp [List.append_assoc]) ?_
        intro op hop
        obtain ⟨s, hs, i, hi, he⟩ := p3 op hop
        rw [he, hb P i h2]
        exact (hp.schemaPlaces s hs i hi).2
      · intro q h1 h3 h4 e
        rw [k3 q h4, k2 q h3, hother q h1]

/-- the names of the documents are those they are stored under -/
theorem DocPlaces.docNames {V : Type} {x : MetsEnv V} {inv : Inv} {mf pf : Str × Str} {mq pq mi pi : Str}
    (hp : DocPlaces x inv mf pf mq pq mi pi)
    (hs : toLower x.cfg.storageType = "area".toList ∨ toLower x.cfg.storageType = "path".toList) :
    docNamesOf x x.cfg.metsFile = .ok ⟨mq, mi⟩ ∧ docNamesOf x x.cfg.premisFile = .ok ⟨pq, pi⟩ := by
  unfold docNamesOf
  rw [if_pos hs, if_pos hs, hp.mets.docFile, hp.premis.docFile, res_bind_ok, res_bind_ok]
  unfold Gocfl.docNames
  rw [hp.metsName, hp.premisName, hp.metsPlace, hp.premisPlace]
  exact ⟨rfl, rfl⟩

/-! ## C117, of the version as it is stored -/

/-- **C117, in full, of what is stored**: each file the METS document lists has that digest in the version it is stored in. -/
def C117_stored_full : Prop :=
  ∀ (V : Type) (x : MetsEnv V) (exts : List (Str × Res (AMap Str V))) (o : Obj) (n : Nat) (m : ObjMeta V) (md : MetsDoc)
    (pd : PremisDoc), GoodInv o.inv n → HexHash x.w → objMetadata o.inv exts = .ok m → metsDocs x m = .ok (some (md, pd)) →
    (metsAfter x exts o).err = none → ∀ q d, md.Lists false q d → HasFile (metsAfter x exts o).obj.inv o.inv.head q d

/-- **C117, of what is stored.**  But for the documents themselves and the schemas, the document lists exactly the files of
the version it is stored in. -/
theorem C117_stored_partial {V : Type} {x : MetsEnv V} {exts : List (Str × Res (AMap Str V))} {o : Obj} {n : Nat}
    (hg : GoodInv o.inv n) (hx : HexHash x.w)
    (hs : toLower x.cfg.storageType = "area".toList ∨ toLower x.cfg.storageType = "path".toList)
    (hc : ∀ q d ps p, HasFile o.inv o.inv.head q d → mget o.inv.manifest d = some ps → p ∈ ps → intArea x.areas p ≠ none)
    {mf pf : Str × Str} {mq pq mi pi : Str} (hp : DocPlaces x o.inv mf pf mq pq mi pi) (ha : PrimaryAlone x o.inv)
    (h : (metsAfter x exts o).err = none) :
    ∃ m md pd, objMetadata o.inv exts = .ok m ∧ metsDocs x m = .ok (some (md, pd)) ∧
      ∀ q, q ≠ mq → q ≠ pq → (∀ s ∈ x.schemas, x.w.statePath s.1 mf.2 ≠ .ok q) →
        ∀ d, md.Lists false q d ↔ HasFile (metsAfter x exts o).obj.inv o.inv.head q d := by
  have hs' : toLower x.cfg.storageType ≠ "extension".toList := by
    rcases hs with hs | hs <;> rw [hs] <;> decide
  obtain ⟨m, md, pd, hf, hm, hd, _, _, _, _, _, hfr⟩ := C116_stored_partial hg hx hs' hc hp h
  refine ⟨m, md, pd, hm, hd, ?_⟩
  intro q h1 h2 h3 d
  obtain ⟨n1, n2⟩ := hp.docNames hs
  rw [hfr q h1 h2 h3]
  constructor
  · exact fun hl => (listed_exists hg hm hd).1 q d hl
  · intro hH
    exact (exists_listed hg hm hd ha n1 n2 hH).1 h1 h2

/-! ### Examples -/

/-- the object to which the documents are added -/
def mxObj (inv : Inv) : Obj := ⟨inv, [], false, []⟩

theorem mxX_hex : HexHash mxX.w := exWorld_hex

/-- an update with documents in the area `metadata`; both are stored -/
example : ∃ m md pd, objMetadata mxGood [] = .ok m ∧ metsDocs mxX m = .ok (some (md, pd)) ∧
    HasFile (metsAfter mxX [] (mxObj mxGood)).obj.inv "v2".toList "mets.xml".toList "a00".toList ∧
    HasFile (metsAfter mxX [] (mxObj mxGood)).obj.inv "v2".toList "premis.xml".toList "a000".toList := by
  have hpl : DocPlaces mxX mxGood ("mets.xml".toList, "metadata".toList) ("premis.xml".toList, "metadata".toList)
      "mets.xml".toList "premis.xml".toList "mets.xml".toList "premis.xml".toList :=
    { mets := .area (by decide), premis := .area (by decide), metsName := rfl, premisName := rfl, metsPlace := rfl, premisPlace := rfl,
      names := by decide, places := by decide, schemaNames := (by intro s h; cases h), schemaPlaces := (by intro s h; cases h),
      fresh := by
        intro t ht
        right
        rintro v ⟨e, hf⟩
        have hv := (mem_filesAt mxGood_good).1 hf
        have : ∀ w ∈ mxGood.versions, ∀ e ∈ filesAt mxGood w.1, e.1 ≠ "mets.xml".toList ∧ e.1 ≠ "premis.xml".toList := by
          decide
        obtain ⟨ver, _, hm, _⟩ := hf
        have := this _ hm _ hv
        rcases ht with rfl | rfl
        · exact this.1 rfl
        · exact this.2 rfl }
  obtain ⟨m, md, pd, hf, hm, hd, hh, h1, h2, _⟩ := C116_stored_partial (x := mxX) (exts := []) (o := mxObj mxGood)
    mxGood_good mxX_hex (by decide) (by
      intro q d ps p _ hps hp
      have : ∀ e ∈ mxGood.manifest, ∀ p ∈ e.2, intArea mxX.areas p ≠ none := by decide
      exact this _ (mem_of_mget hps) p hp) hpl (by decide)
  refine ⟨m, md, pd, hm, hd, (h1 _).2 ?_, (h2 _).2 ?_⟩
  · have : mxX.w.hash (mxObj mxGood).inv.digestAlg = some (fun b => 'a' :: List.replicate b.length '0') := by rfl
    rw [this] at hh
    cases hh
    rfl
  · have : mxX.w.hash (mxObj mxGood).inv.digestAlg = some (fun b => 'a' :: List.replicate b.length '0') := by rfl
    rw [this] at hh
    cases hh
    rfl

/-- C116 fails: an object whose content directory is not `content` gets no documents, and no error. -/
def mxStuff : Inv := { mxInv [("d1".toList, ["v1/stuff/data/a".toList])] [[("d1".toList, ["data/a".toList])]] with
  contentDirectory := "stuff".toList }

theorem C116_full_fails_content_directory : ¬ C116_full := by
  intro hfull
  have hg : GoodInv mxStuff 1 := goodInv_of (by decide) (by decide) (by decide) (by decide) (by decide)
  obtain ⟨m, md, pd, hm, hd, _⟩ := hfull Str (mxEnv mxAreas []) [] (mxObj mxStuff) 1 hg mxX_hex (by decide) (by decide)
  have h1 : (objMetadata mxStuff [] >>= fun m => metsDocs (mxEnv mxAreas []) m) = .ok none := by rfl
  have hm : objMetadata mxStuff [] = .ok m := hm
  rw [hm, res_bind_ok, hd] at h1
  cases h1

/-- documents in the folder of the extension -/
def mxExtEnv : MetsEnv Str :=
  { mxEnv mxAreas [] with cfg := ⟨"extension".toList, "metadata".toList, [], "mets.xml".toList, "premis.xml".toList⟩ }

/-- C116 fails: with the storage type `extension` the PREMIS document is not stored; the METS document is, twice. -/
theorem C116_full_fails_extension : ¬ C116_full := by
  intro hfull
  obtain ⟨m, md, pd, _, _, _, p, hp⟩ := hfull Str mxExtEnv [] (mxObj mxGood) 2 mxGood_good mxX_hex (by decide) (by decide)
  have h1 := mem_of_mget (hp [])
  have h2 : ∀ e ∈ applyOps [] (metsAfter mxExtEnv [] (mxObj mxGood)).obj.trace, e.2 = [1, 2] := by decide
  have h3 := h2 _ h1
  have h4 : mxExtEnv.premisXml pd = [3, 4, 5] := rfl
  simp only [h4] at h3
  cases h3

/-- an object with documents of an earlier version in the content area -/
def mxOld : Inv := mxInv
  [("d1".toList, ["v1/content/data/a".toList]), ("d8".toList, ["v1/content/content/mets.xml".toList]),
   ("d9".toList, ["v1/content/content/premis.xml".toList])]
  [[("d1".toList, ["data/a".toList]), ("d8".toList, ["content/mets.xml".toList]), ("d9".toList, ["content/premis.xml".toList])],
   [("d1".toList, ["data/a".toList]), ("d8".toList, ["content/mets.xml".toList]), ("d9".toList, ["content/premis.xml".toList])]]

def mxPathEnv : MetsEnv Str :=
  { mxEnv mxAreas [] with cfg := ⟨"path".toList, [], [], "mets.xml".toList, "premis.xml".toList⟩ }

/-- C117 fails: with the storage type `path` the document of the second version lists the documents of the first. -/
theorem C117_full_fails_stale : ¬ C117_stored_full := by
  intro hfull
  have hg : GoodInv mxOld 2 := goodInv_of (by decide) (by decide) (by decide) (by decide) (by decide)
  obtain ⟨m, md, pd, hm, hd, hx⟩ := mxDocs_some (x := mxPathEnv) (inv := mxOld) (exts := []) (by decide)
  have h1 : (mxDocs mxPathEnv mxOld []).map (fun r => r.1.groups.any (fun g => g.files.any (fun f => decide
      (f.checksum = "d8".toList ∧ ⟨false, "content/mets.xml".toList⟩ ∈ f.locs)))) = some true := by decide
  rw [hx] at h1
  obtain ⟨g, hgm, h2⟩ := List.any_eq_true.1 (Option.some.inj h1)
  obtain ⟨f, hf, h3⟩ := List.any_eq_true.1 h2
  obtain ⟨h4, h5⟩ := of_decide_eq_true h3
  have h := hfull Str mxPathEnv [] (mxObj mxOld) 2 m md pd hg mxX_hex hm hd (by decide) "content/mets.xml".toList "d8".toList
    (Or.inl ⟨g, hgm, f, hf, h4, h5⟩)
  obtain ⟨ver, ps, h6, h7, h8⟩ := h
  have : ∀ e ∈ (metsAfter mxPathEnv [] (mxObj mxOld)).obj.inv.versions, e.1 = "v2".toList → ∀ y ∈ e.2.state,
      y.1 = "d8".toList → y.2 = [] := by decide
  have h9 : ps = [] := this _ h6 rfl _ h7 rfl
  rw [h9] at h8
  cases h8

end Gocfl
