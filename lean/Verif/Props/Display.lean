import Verif.Model.Display
import Verif.Props.MetsEx
import Verif.Props.ObjCheck

/-!
# C124, C125, C126: the web display

What the display answers: contents, pages of versions, with the object that is kept between requests.
-/

namespace Gocfl

/-! ## A request alone -/

/-- the answer of a request with an object and its metadata -/
def useAns {V : Type} (fs : FS) (r : DispReq) (o : OpenObj) (m : ObjMeta V) : DispAns :=
  match useMeta r (⟨some o, some m⟩ : DispSt V) with
  | .done a => a
  | .openFile p => (match mget (subFS fs o.folder) p with
    | some b => .bytes b
    | none => .bad)
  | .showPage files => .page o.inv.id files
  | _ => .bad

/-- what a request is answered that finds nothing kept -/
def freshAns {V : Type} (E : DispEnv V) (fs : FS) (r : DispReq) : DispAns :=
  match loadReq E fs r with
  | .error (.error _) => .bad
  | .error (.panic _) => .panic
  | .ok o =>
    match E.metaOf fs o with
    | .error (.error _) => .bad
    | .error (.panic _) => .panic
    | .ok m => useAns fs r o m

/-- the last steps, with object and metadata at hand -/
theorem use_two {V : Type} (E : DispEnv V) (fs : FS) (r : DispReq) (o : OpenObj) (m : ObjMeta V) :
    dispStep E fs r (dispStep E fs r ⟨some o, some m⟩ .use).1 (dispStep E fs r ⟨some o, some m⟩ .use).2 =
      (⟨some o, some m⟩, .done (useAns fs r o m)) := by
  have hopen : ∀ p, dispStep E fs r (⟨some o, some m⟩ : DispSt V) (.openFile p) =
      (⟨some o, some m⟩, .done (match mget (subFS fs o.folder) p with | some b => .bytes b | none => .bad)) := by
    intro p
    simp only [dispStep]
    cases mget (subFS fs o.folder) p <;> rfl
  cases r with
  | download id c =>
    simp only [dispStep, useMeta, useAns]
    cases hf : mget m.files c with
    | none => rfl
    | some f =>
      cases hi : f.internal with
      | nil => simp only [hi]
      | cons p ps => simp only [hi]; exact hopen p
  | version id v => rfl
  | manifest id => rfl
  | extFile id e p => exact hopen (extFilePath e p)
  | folder p => rfl

theorem serve_use {V : Type} {E : DispEnv V} {fs : FS} {r : DispReq} {o : OpenObj} {m : ObjMeta V}
    (h : startReq r (⟨some o, some m⟩ : DispSt V) = .use) :
    serve E fs r ⟨some o, some m⟩ = (⟨some o, some m⟩, .done (useAns fs r o m)) := by
  have h1 : dispStep E fs r (⟨some o, some m⟩ : DispSt V) .start = (⟨some o, some m⟩, .use) := by
    simp only [dispStep, h]
  unfold serve
  simp only [h1, use_two]
  rfl

theorem serve_getMeta {V : Type} {E : DispEnv V} {fs : FS} {r : DispReq} {o : OpenObj}
    (h : startReq r (⟨some o, none⟩ : DispSt V) = .getMeta) :
    (∀ m, E.metaOf fs o = .ok m → serve E fs r ⟨some o, none⟩ = (⟨some o, some m⟩, .done (useAns fs r o m))) ∧
    (∀ e, E.metaOf fs o = .error (.error e) → serve E fs r ⟨some o, none⟩ = (⟨some o, none⟩, .done .bad)) ∧
    ∀ e, E.metaOf fs o = .error (.panic e) → serve E fs r ⟨some o, none⟩ = (⟨some o, none⟩, .done .panic) := by
  have h1 : dispStep E fs r (⟨some o, none⟩ : DispSt V) .start = (⟨some o, none⟩, .getMeta) := by
    simp only [dispStep, h]
  refine ⟨fun m hm => ?_, fun e he => ?_, fun e he => ?_⟩
  · have h2 : dispStep E fs r (⟨some o, none⟩ : DispSt V) .getMeta = (⟨some o, some m⟩, .use) := by
      simp only [dispStep, hm]
    unfold serve
    simp only [h1, h2, use_two]
    rfl
  · have h2 : dispStep E fs r (⟨some o, none⟩ : DispSt V) .getMeta = (⟨some o, none⟩, .done .bad) := by
      simp only [dispStep, he]
    unfold serve
    simp only [h1, h2]
    rfl
  · have h2 : dispStep E fs r (⟨some o, none⟩ : DispSt V) .getMeta = (⟨some o, none⟩, .done .panic) := by
      simp only [dispStep, he]
    unfold serve
    simp only [h1, h2]
    rfl

theorem serve_load {V : Type} {E : DispEnv V} {fs : FS} {r : DispReq} {s : DispSt V} (h : startReq r s = .load) :
    (serve E fs r s).2 = .done (freshAns E fs r) ∧
    ((serve E fs r s).1 = s ∨ (serve E fs r s).1.object = none ∨
      ∃ o, loadReq E fs r = .ok o ∧ (serve E fs r s).1.object = some o ∧
        ((serve E fs r s).1.metadata = none ∨ (∃ e, E.metaOf fs o = .error (.panic e)) ∨
          ∃ m, E.metaOf fs o = .ok m ∧ (serve E fs r s).1.metadata = some m)) := by
  have h1 : dispStep E fs r s .start = (s, .load) := by simp only [dispStep, h]
  unfold freshAns
  cases hl : loadReq E fs r with
  | error e =>
    cases e with
    | error e =>
      have h2 : dispStep E fs r s .load = (⟨none, s.metadata⟩, .done .bad) := by simp only [dispStep, hl]
      unfold serve
      simp only [h1, h2]
      exact ⟨rfl, Or.inr (Or.inl rfl)⟩
    | panic e =>
      have h2 : dispStep E fs r s .load = (s, .done .panic) := by simp only [dispStep, hl]
      unfold serve
      simp only [h1, h2]
      exact ⟨rfl, Or.inl rfl⟩
  | ok o =>
    have h2 : dispStep E fs r s .load = (⟨some o, s.metadata⟩, .getMeta) := by simp only [dispStep, hl]
    cases hm : E.metaOf fs o with
    | error e =>
      cases e with
      | error e =>
        have h3 : dispStep E fs r (⟨some o, s.metadata⟩ : DispSt V) .getMeta = (⟨some o, none⟩, .done .bad) := by
          simp only [dispStep, hm]
        unfold serve
        simp only [h1, h2, h3, hm]
        exact ⟨rfl, Or.inr (Or.inr ⟨o, rfl, rfl, Or.inl rfl⟩)⟩
      | panic e =>
        have h3 : dispStep E fs r (⟨some o, s.metadata⟩ : DispSt V) .getMeta = (⟨some o, s.metadata⟩, .done .panic) := by
          simp only [dispStep, hm]
        unfold serve
        simp only [h1, h2, h3, hm]
        exact ⟨rfl, Or.inr (Or.inr ⟨o, rfl, rfl, Or.inr (Or.inl ⟨e, hm⟩)⟩)⟩
    | ok m =>
      have h3 : dispStep E fs r (⟨some o, s.metadata⟩ : DispSt V) .getMeta = (⟨some o, some m⟩, .use) := by
        simp only [dispStep, hm]
      unfold serve
      simp only [h1, h2, h3, use_two, hm]
      exact ⟨trivial, Or.inr (Or.inr ⟨o, rfl, rfl, Or.inr (Or.inr ⟨m, hm, rfl⟩)⟩)⟩

/-! ## The object that is kept -/

/-- nothing is kept: the server has just been started -/
def DispSt.fresh {V : Type} : DispSt V := ⟨none, none⟩

/-- objects are in the folders of their ids -/
def InPlace {V : Type} (E : DispEnv V) (fs : FS) : Prop :=
  ∀ f o, E.openFolder fs f = .ok o → E.openId fs o.inv.id = .ok o

/-- the extensions do not panic when asked for metadata -/
def NoMetaPanic {V : Type} (E : DispEnv V) : Prop := ∀ fs o e, E.metaOf fs o ≠ .error (.panic e)

theorem loadReq_place {V : Type} {E : DispEnv V} {fs : FS} (hp : InPlace E fs) {r : DispReq} {o : OpenObj}
    (h : loadReq E fs r = .ok o) : E.openId fs o.inv.id = .ok o := by
  have key : ∀ id, E.openId fs id = .ok o → E.openId fs o.inv.id = .ok o := by
    intro id h
    unfold DispEnv.openId at h
    split at h
    · cases h
    · exact hp _ _ h
  cases r with
  | download id c => exact key id h
  | version id v => exact key id h
  | manifest id => exact key id h
  | extFile id e p => exact key id h
  | folder p => exact hp _ _ h

/-- a request that uses what is kept asks for the object by its id -/
theorem startReq_kept {V : Type} {r : DispReq} {s : DispSt V} (h : startReq r s ≠ .load) :
    ∃ o, s.object = some o ∧ r.id? = some o.inv.id ∧
      ((s.metadata = none ∧ startReq r s = .getMeta) ∨ (∃ m, s.metadata = some m) ∧ startReq r s = .use) := by
  unfold startReq at h ⊢
  cases hr : r.id? with
  | none => rw [hr] at h; exact absurd rfl h
  | some id =>
    cases ho : s.object with
    | none => rw [hr, ho] at h; exact absurd rfl h
    | some o =>
      rw [hr, ho] at h
      simp only at h
      by_cases hid : o.inv.id = id
      · subst hid
        rw [if_pos rfl] at h
        refine ⟨o, rfl, rfl, ?_⟩
        simp only [if_pos]
        cases hm : s.metadata with
        | none => exact Or.inl ⟨rfl, rfl⟩
        | some m => exact Or.inr ⟨⟨m, rfl⟩, rfl⟩
      · rw [if_neg hid] at h
        exact absurd rfl h

theorem loadReq_id {V : Type} {E : DispEnv V} {fs : FS} {r : DispReq} {id : Str} (h : r.id? = some id) :
    loadReq E fs r = E.openId fs id := by
  cases r <;> cases h <;> rfl

/-- What is kept is what is found on disk. -/
def OnDisk {V : Type} (E : DispEnv V) (fs : FS) (s : DispSt V) : Prop :=
  ∀ o, s.object = some o → E.openId fs o.inv.id = .ok o ∧ ∀ m, s.metadata = some m → E.metaOf fs o = .ok m

theorem serve_kept {V : Type} {E : DispEnv V} {fs : FS} (hp : InPlace E fs) (hn : NoMetaPanic E) {s : DispSt V}
    (hk : OnDisk E fs s) (r : DispReq) : (serve E fs r s).2 = .done (freshAns E fs r) ∧ OnDisk E fs (serve E fs r s).1 := by
  by_cases hl : startReq r s = .load
  · obtain ⟨h1, h2⟩ := serve_load (E := E) (fs := fs) hl
    refine ⟨h1, ?_⟩
    rcases h2 with h2 | h2 | ⟨o, ho, h2, h3⟩
    · rw [h2]; exact hk
    · intro o ho
      rw [h2] at ho; cases ho
    · intro o' ho'
      rw [h2] at ho'; cases ho'
      refine ⟨loadReq_place hp ho, ?_⟩
      intro m hm
      rcases h3 with h3 | ⟨e, he⟩ | ⟨m', h3, h4⟩
      · rw [h3] at hm; cases hm
      · exact absurd he (hn _ _ _)
      · rw [h4] at hm; cases hm
        exact h3
  · obtain ⟨o, ho, hid, h⟩ := startReq_kept hl
    obtain ⟨hopen, hmeta⟩ := hk o ho
    obtain ⟨so, sm⟩ := s
    simp only at ho
    subst ho
    have hload : loadReq E fs r = .ok o := (loadReq_id hid).trans hopen
    have hans : ∀ m, E.metaOf fs o = .ok m → freshAns E fs r = useAns fs r o m := by
      intro m hm
      unfold freshAns
      rw [hload]
      simp only [hm]
    rcases h with ⟨hm, hs⟩ | ⟨⟨m, hm⟩, hs⟩
    · simp only at hm
      subst hm
      obtain ⟨g1, g2, _⟩ := serve_getMeta (E := E) (fs := fs) hs
      cases hmo : E.metaOf fs o with
      | ok m =>
        rw [g1 m hmo, hans m hmo]
        refine ⟨rfl, ?_⟩
        intro o' ho'
        cases ho'
        exact ⟨hopen, fun m' hm' => by cases hm'; exact hmo⟩
      | error e =>
        cases e with
        | error e =>
          rw [g2 e hmo]
          refine ⟨?_, hk⟩
          unfold freshAns
          rw [hload]
          simp only [hmo]
        | panic e => exact absurd hmo (hn _ _ _)
    · simp only at hm
      subst hm
      rw [serve_use hs, hans m (hmeta m rfl)]
      exact ⟨rfl, hk⟩

theorem kept_fresh {V : Type} (E : DispEnv V) (fs : FS) : OnDisk E fs (DispSt.fresh : DispSt V) := by
  intro o h; cases h

theorem serve_fresh {V : Type} {E : DispEnv V} {fs : FS} (hp : InPlace E fs) (hn : NoMetaPanic E) (r : DispReq) :
    (serve E fs r DispSt.fresh).2 = .done (freshAns E fs r) := (serve_kept hp hn (kept_fresh E fs) r).1

/-! ## C125 -/

/-- Each answer is the one of a server that has just been started. -/
def AnsweredAnew {V : Type} (E : DispEnv V) (rs : List (FS × DispReq)) : Prop :=
  serveAll E rs DispSt.fresh = rs.map (fun x => (serve E x.1 x.2 DispSt.fresh).2)

/-- **C125, in full**: whatever happens to the files between the requests. -/
def C125_full : Prop :=
  ∀ (V : Type) (E : DispEnv V) (rs : List (FS × DispReq)), (∀ x ∈ rs, InPlace E x.1) → NoMetaPanic E → AnsweredAnew E rs

/-- **C125.**  As long as the files do not change, what the server keeps makes no difference. -/
theorem C125_kept_partial {V : Type} (E : DispEnv V) (fs : FS) (hp : InPlace E fs) (hn : NoMetaPanic E)
    (rs : List DispReq) : AnsweredAnew E (rs.map (fun r => (fs, r))) := by
  have key : ∀ (rs : List DispReq) (s : DispSt V), OnDisk E fs s →
      serveAll E (rs.map (fun r => (fs, r))) s = rs.map (fun r => .done (freshAns E fs r)) := by
    intro rs
    induction rs with
    | nil => intro s _; rfl
    | cons r rs ih =>
      intro s hk
      obtain ⟨h1, h2⟩ := serve_kept hp hn hk r
      simp only [List.map_cons, serveAll]
      rw [h1, ih _ h2]
  unfold AnsweredAnew
  rw [key rs _ (kept_fresh E fs), List.map_map]
  refine List.map_congr_left ?_
  intro r _
  exact (serve_fresh hp hn r).symm

/-! ## C124 -/

/-- The bytes are those of a content file with that digest of the object with that id. -/
def RightBytes {V : Type} (E : DispEnv V) (fs : FS) (id c : Str) (b : Bytes) : Prop :=
  ∃ o ps p, E.openId fs id = .ok o ∧ (c, ps) ∈ o.inv.manifest ∧ p ∈ ps ∧ mget (subFS fs o.folder) p = some b

/-- **C124, in full**: requests at the same time. -/
def C124_full : Prop :=
  ∀ (V : Type) (E : DispEnv V) (fs : FS) (sched : List Nat) (rs : List DispReq), InPlace E fs → NoMetaPanic E →
    ∀ id c b, (DispReq.download id c, DispPc.done (.bytes b)) ∈
      interleave E fs sched DispSt.fresh (rs.map (fun r => (r, .start))) → RightBytes E fs id c b

/-- a content path of the digest in the manifest -/
def Inv.Lists (inv : Inv) (d p : Str) : Prop := ∃ ps, (d, ps) ∈ inv.manifest ∧ p ∈ ps

/-- Between the two, objects may have got new contents, or been added. -/
def DiskGrew {V : Type} (E : DispEnv V) (fs fs' : FS) : Prop :=
  ∀ id o, E.openId fs id = .ok o → ∃ o', E.openId fs' id = .ok o' ∧ o'.inv.id = o.inv.id ∧
    ∀ d p, o.inv.Lists d p → o'.inv.Lists d p

/-- the disks grow from request to request -/
def Growing {V : Type} (E : DispEnv V) : List (FS × DispReq) → Prop
  | [] => True
  | [x] => InPlace E x.1
  | x :: y :: rest => InPlace E x.1 ∧ DiskGrew E x.1 y.1 ∧ Growing E (y :: rest)

/-- What is kept was on disk. -/
def KeptOld {V : Type} (E : DispEnv V) (fs : FS) (s : DispSt V) : Prop :=
  ∀ o, s.object = some o →
    (∃ o', E.openId fs o.inv.id = .ok o' ∧ o'.folder = o.folder ∧ o'.inv.id = o.inv.id ∧
      ∀ d p, o.inv.Lists d p → o'.inv.Lists d p) ∧
    ∀ m, s.metadata = some m → ∀ d f, mget m.files d = some f → ∀ p ∈ f.internal, o.inv.Lists d p

theorem openId_folder {V : Type} {E : DispEnv V} {fs : FS} {id : Str} {o : OpenObj} (h : E.openId fs id = .ok o) :
    o.folder = (rootPath E.ls id).1 := by
  unfold DispEnv.openId at h
  split at h
  · cases h
  · unfold DispEnv.openFolder at h
    obtain ⟨r, _, h⟩ := res_bind_eq_ok.1 h
    cases h
    rfl

theorem metaOf_lists {V : Type} {E : DispEnv V} {fs : FS} {o : OpenObj} {m : ObjMeta V} (h : E.metaOf fs o = .ok m)
    {d : Str} {f : FileMeta V} (hf : mget m.files d = some f) {p : Str} (hp : p ∈ f.internal) : o.inv.Lists d p := by
  obtain ⟨em, _, rfl⟩ := objMetadata_ok h
  have hf := mem_of_mget hf
  simp only [List.mem_filterMap] at hf
  obtain ⟨e, he, hf⟩ := hf
  split at hf
  · cases hf
  · cases hf
    exact ⟨e.2, he, hp⟩

theorem keptOld_grew {V : Type} {E : DispEnv V} {fs fs' : FS} (hg : DiskGrew E fs fs') {s : DispSt V}
    (hk : KeptOld E fs s) : KeptOld E fs' s := by
  intro o ho
  obtain ⟨⟨o', h1, h2, h3, h4⟩, h5⟩ := hk o ho
  obtain ⟨o2, g1, g2, g3⟩ := hg _ _ h1
  exact ⟨⟨o2, g1, by rw [openId_folder g1, ← openId_folder h1, h2], g2.trans h3, fun d p h => g3 d p (h4 d p h)⟩, h5⟩

theorem kept_old {V : Type} {E : DispEnv V} {fs : FS} {s : DispSt V} (hk : OnDisk E fs s) : KeptOld E fs s := by
  intro o ho
  obtain ⟨h1, h2⟩ := hk o ho
  exact ⟨⟨o, h1, rfl, rfl, fun _ _ h => h⟩, fun m hm d f hf p hp => metaOf_lists (h2 m hm) hf hp⟩

/-- bytes of a download come from the object and the metadata -/
theorem useAns_download {V : Type} {fs : FS} {id c : Str} {o : OpenObj} {m : ObjMeta V} {b : Bytes}
    (h : useAns fs (.download id c) o m = .bytes b) :
    ∃ f p, mget m.files c = some f ∧ p ∈ f.internal ∧ mget (subFS fs o.folder) p = some b := by
  simp only [useAns, useMeta] at h
  cases hf : mget m.files c with
  | none => simp only [hf] at h; cases h
  | some f =>
    cases hi : f.internal with
    | nil => simp only [hf, hi] at h; cases h
    | cons p ps =>
      simp only [hf, hi] at h
      cases hb : mget (subFS fs o.folder) p with
      | none => simp only [hb] at h; cases h
      | some b' =>
        simp only [hb] at h
        cases h
        exact ⟨f, p, rfl, by rw [hi]; simp, hb⟩

theorem freshAns_download {V : Type} {E : DispEnv V} {fs : FS} {id c : Str} {b : Bytes}
    (h : freshAns E fs (.download id c) = .bytes b) : RightBytes E fs id c b := by
  unfold freshAns at h
  cases hl : loadReq E fs (.download id c) with
  | error e => rw [hl] at h; cases e <;> cases h
  | ok o =>
    rw [hl] at h
    cases hm : E.metaOf fs o with
    | error e => simp only [hm] at h; cases e <;> cases h
    | ok m =>
      simp only [hm] at h
      obtain ⟨f, p, h1, h2, h3⟩ := useAns_download h
      obtain ⟨ps, h4, h5⟩ := metaOf_lists hm h1 h2
      exact ⟨o, ps, p, hl, h4, h5, h3⟩

theorem serve_keptOld {V : Type} {E : DispEnv V} {fs : FS} (hp : InPlace E fs) (hn : NoMetaPanic E) {s : DispSt V}
    (hk : KeptOld E fs s) (r : DispReq) : KeptOld E fs (serve E fs r s).1 ∧
      ∀ id c b, r = .download id c → (serve E fs r s).2 = .done (.bytes b) → RightBytes E fs id c b := by
  by_cases hl : startReq r s = .load
  · obtain ⟨h1, h2⟩ := serve_load (E := E) (fs := fs) hl
    constructor
    · rcases h2 with h2 | h2 | ⟨o, ho, h2, h3⟩
      · rw [h2]; exact hk
      · intro o ho
        rw [h2] at ho; cases ho
      · refine kept_old ?_
        intro o' ho'
        rw [h2] at ho'; cases ho'
        refine ⟨loadReq_place hp ho, ?_⟩
        intro m hm
        rcases h3 with h3 | ⟨e, he⟩ | ⟨m', h3, h4⟩
        · rw [h3] at hm; cases hm
        · exact absurd he (hn _ _ _)
        · rw [h4] at hm; cases hm
          exact h3
    · rintro id c b rfl hb
      rw [h1] at hb
      injection hb with hb
      exact freshAns_download hb
  · obtain ⟨o, ho, hid, h⟩ := startReq_kept hl
    obtain ⟨⟨o', hopen, hfold, _, hsub⟩, hmeta⟩ := hk o ho
    obtain ⟨so, sm⟩ := s
    simp only at ho
    subst ho
    have hbytes : ∀ m : ObjMeta V, (∀ d f, mget m.files d = some f → ∀ p ∈ f.internal, o.inv.Lists d p) → ∀ id c b,
        r = .download id c → useAns fs r o m = .bytes b → RightBytes E fs id c b := by
      rintro m hm id c b rfl hb
      obtain ⟨f, p, h1, h2, h3⟩ := useAns_download hb
      obtain ⟨ps, h4, h5⟩ := hsub _ _ (hm _ _ h1 p h2)
      cases hid
      exact ⟨o', ps, p, hopen, h4, h5, by rw [hfold]; exact h3⟩
    rcases h with ⟨hm, hs⟩ | ⟨⟨m, hm⟩, hs⟩
    · simp only at hm
      subst hm
      obtain ⟨g1, g2, _⟩ := serve_getMeta (E := E) (fs := fs) hs
      cases hmo : E.metaOf fs o with
      | ok m =>
        rw [g1 m hmo]
        refine ⟨?_, ?_⟩
        · intro o2 ho2
          cases ho2
          refine ⟨(hk o rfl).1, ?_⟩
          intro m' hm'
          cases hm'
          exact fun d f hf p hp => metaOf_lists hmo hf hp
        · intro id c b hr hb
          injection hb with hb
          exact hbytes m (fun d f hf p hp => metaOf_lists hmo hf hp) id c b hr hb
      | error e =>
        cases e with
        | error e =>
          rw [g2 e hmo]
          refine ⟨hk, ?_⟩
          intro id c b hr hb
          cases hb
        | panic e => exact absurd hmo (hn _ _ _)
    · simp only at hm
      subst hm
      rw [serve_use hs]
      refine ⟨hk, ?_⟩
      intro id c b hr hb
      injection hb with hb
      exact hbytes m (hmeta m rfl) id c b hr hb

/-- **C124.**  Requests that are handled one after the other are answered with bytes of a content file with the digest asked for,
of the object asked for, also if objects are changed meanwhile. -/
theorem C124_download_partial {V : Type} (E : DispEnv V) (hn : NoMetaPanic E) (rs : List (FS × DispReq)) (hg : Growing E rs)
    (i : Nat) (fs : FS) (id c : Str) (b : Bytes) (hr : rs[i]? = some (fs, .download id c))
    (ha : (serveAll E rs DispSt.fresh)[i]? = some (.done (.bytes b))) : RightBytes E fs id c b := by
  have key : ∀ (rs : List (FS × DispReq)) (s : DispSt V) (i : Nat), Growing E rs →
      (∀ x, rs.head? = some x → KeptOld E x.1 s) → rs[i]? = some (fs, .download id c) →
      (serveAll E rs s)[i]? = some (.done (.bytes b)) → RightBytes E fs id c b := by
    intro rs
    induction rs with
    | nil => intro s i _ _ hr; simp at hr
    | cons x rs ih =>
      intro s i hg hk hr ha
      obtain ⟨fs1, r1⟩ := x
      have hx := hk _ rfl
      have hplace : InPlace E fs1 := by
        cases rs with
        | nil => exact hg
        | cons y rs => exact hg.1
      obtain ⟨h1, h2⟩ := serve_keptOld hplace hn hx r1
      cases i with
      | zero =>
        simp only [List.getElem?_cons_zero, Option.some.injEq, Prod.mk.injEq] at hr
        obtain ⟨rfl, rfl⟩ := hr
        simp only [serveAll, List.getElem?_cons_zero, Option.some.injEq] at ha
        exact h2 id c b rfl ha
      | succ i =>
        simp only [List.getElem?_cons_succ] at hr
        simp only [serveAll, List.getElem?_cons_succ] at ha
        cases rs with
        | nil => simp at hr
        | cons y rs =>
          refine ih (serve E fs1 r1 s).1 i hg.2.2 ?_ hr ha
          intro z hz
          cases hz
          exact keptOld_grew hg.2.1 h1
  refine key rs _ i hg ?_ hr ha
  intro x _ o ho
  cases ho

/-- Their digest is the one asked for, if the contents on disk are intact. -/
theorem C124_digest {V : Type} {E : DispEnv V} {fs : FS} {id c : Str} {b : Bytes} (hr : RightBytes E fs id c b)
    {h : Bytes → Str} (hc : ∀ o, E.openId fs id = .ok o → ContentOk h o.inv (subFS fs o.folder)) :
    toLower (h b) = toLower c := by
  obtain ⟨o, ps, p, h1, h2, h3, h4⟩ := hr
  obtain ⟨b', h5, h6⟩ := hc o h1 c ps p h2 h3
  rw [h4] at h5
  cases h5
  exact h6

/-! ## C126 -/

/-- The page shows the object with that id, and of the version the files with their digests. -/
def RightPage {V : Type} (E : DispEnv V) (fs : FS) (id v shown : Str) (files : AMap Str Str) : Prop :=
  ∃ o, E.openId fs id = .ok o ∧ shown = o.inv.id ∧ ∀ q d, mget files q = some d ↔ HasFile o.inv v q d

/-- objects are as the program keeps them -/
def GoodObjects {V : Type} (E : DispEnv V) (fs : FS) : Prop := ∀ f o, E.openFolder fs f = .ok o → ∃ n, GoodInv o.inv n

/-- **C126, in full**: requests at the same time. -/
def C126_full : Prop :=
  ∀ (V : Type) (E : DispEnv V) (fs : FS) (sched : List Nat) (rs : List DispReq), InPlace E fs → NoMetaPanic E →
    GoodObjects E fs → ∀ id v shown files, (DispReq.version id v, DispPc.done (.page shown files)) ∈
      interleave E fs sched DispSt.fresh (rs.map (fun r => (r, .start))) → RightPage E fs id v shown files

theorem hasFile_functional {inv : Inv} {n : Nat} (hg : GoodInv inv n) {v q d d' : Str} (h : HasFile inv v q d)
    (h' : HasFile inv v q d') : d = d' := by
  obtain ⟨ver, ps, h1, h2, h3⟩ := h
  obtain ⟨ver', ps', h1', h2', h3'⟩ := h'
  have hv : ver = ver' := by
    have a := mget_of_mem hg.wf.1.nodup h1
    have b := mget_of_mem hg.wf.1.nodup h1'
    rw [a] at b
    exact Option.some.inj b
  subst hv
  exact inSt_unique (hg.one _ _ h1) ⟨ps, h2, h3⟩ ⟨ps', h2', h3'⟩

/-- the page of a version -/
theorem versionPage_exact {V : Type} {inv : Inv} {n : Nat} (hg : GoodInv inv n) {exts : List (Str × Res (AMap Str V))}
    {m : ObjMeta V} (h : objMetadata inv exts = .ok m) (v q d : Str) :
    mget (versionPage m v) q = some d ↔ HasFile inv v q d := by
  have hx := hg.exact h
  have hn := metaFiles_nodup hg.man h
  have hmem : ∀ q d, (q, d) ∈ m.files.flatMap (fun e => ((mget e.2.versionName v).getD []).map (fun q => (q, e.1))) ↔
      HasFile inv v q d := by
    intro q d
    rw [hx.names, List.mem_flatMap]
    constructor
    · rintro ⟨⟨d', f⟩, he, hq⟩
      obtain ⟨q', hq', h1⟩ := List.mem_map.1 hq
      cases h1
      cases hv : mget f.versionName v with
      | none => simp only [hv, Option.getD_none] at hq'; cases hq'
      | some ps =>
        simp only [hv, Option.getD_some] at hq'
        exact ⟨f, ps, mget_of_mem hn he, hv, hq'⟩
    · rintro ⟨f, ps, h1, h2, h3⟩
      refine ⟨(d, f), mem_of_mget h1, List.mem_map.2 ⟨q, ?_, rfl⟩⟩
      simp only [h2, Option.getD_some]
      exact h3
  unfold versionPage
  constructor
  · intro hq
    rcases foldl_mset_sound (fun x => x) _ _ hq with h0 | ⟨p, hp, rfl⟩
    · cases h0
    · exact (hmem _ _).1 hp
  · intro hq
    obtain ⟨x, hx'⟩ := foldl_mset_complete (fun x => x) _ [] (Or.inr ⟨(q, d), (hmem q d).2 hq, rfl⟩)
    rcases foldl_mset_sound (fun x => x) _ _ hx' with h0 | ⟨p, hp, hpq⟩
    · cases h0
    · have hpq : p = q := hpq
      subst hpq
      have := hasFile_functional hg hq ((hmem _ _).1 hp)
      subst this
      exact hx'

/-- **C126.**  Requests that are handled one after the other, while the files do not change: the page of a version shows the
object and the files of the version. -/
theorem C126_version_partial {V : Type} (E : DispEnv V) (fs : FS) (hp : InPlace E fs) (hn : NoMetaPanic E)
    (hgood : GoodObjects E fs) (rs : List DispReq) (i : Nat) (id v shown : Str) (files : AMap Str Str)
    (hr : rs[i]? = some (.version id v))
    (ha : (serveAll E (rs.map (fun r => (fs, r))) DispSt.fresh)[i]? = some (.done (.page shown files))) :
    RightPage E fs id v shown files := by
  rw [C125_kept_partial E fs hp hn rs, List.map_map, List.getElem?_map, hr] at ha
  simp only [Option.map_some, Function.comp, Option.some.injEq] at ha
  rw [serve_fresh hp hn] at ha
  injection ha with ha
  unfold freshAns at ha
  cases hl : loadReq E fs (.version id v) with
  | error e => rw [hl] at ha; cases e <;> cases ha
  | ok o =>
    rw [hl] at ha
    cases hm : E.metaOf fs o with
    | error e => simp only [hm] at ha; cases e <;> cases ha
    | ok m =>
      simp only [hm] at ha
      cases ha
      have hl : E.openId fs id = .ok o := hl
      refine ⟨o, hl, rfl, ?_⟩
      have hl2 := hl
      unfold DispEnv.openId at hl2
      split at hl2
      · cases hl2
      · obtain ⟨n, hg⟩ := hgood _ _ hl2
        exact versionPage_exact hg hm v

/-- The page shows the object with that id, and all its content files with their digests. -/
def RightManifest {V : Type} (E : DispEnv V) (fs : FS) (id shown : Str) (files : AMap Str Str) : Prop :=
  ∃ o, E.openId fs id = .ok o ∧ shown = o.inv.id ∧ ∀ p d, mget files p = some d ↔ o.inv.Lists d p

/-- the page of the manifest -/
theorem manifestPage_exact {V : Type} {E : DispEnv V} {fs : FS} {o : OpenObj} {m : ObjMeta V} (hg : PathsFunctional o.inv.manifest)
    (h : E.metaOf fs o = .ok m) (p d : Str) : mget (manifestPage m) p = some d ↔ o.inv.Lists d p := by
  obtain ⟨em, _, rfl⟩ := objMetadata_ok h
  have hmem : ∀ p d, (p, d) ∈ (o.inv.manifest.filterMap (fun e => if e.2 = [] then none else
      some (e.1, fileMeta o.inv em e.1 e.2))).flatMap (fun e => e.2.internal.map (fun p => (p, e.1))) ↔ o.inv.Lists d p := by
    intro p d
    rw [List.mem_flatMap]
    constructor
    · rintro ⟨⟨d', f⟩, he, hq⟩
      obtain ⟨p', hp', h1⟩ := List.mem_map.1 hq
      cases h1
      rw [List.mem_filterMap] at he
      obtain ⟨e, he, hf⟩ := he
      split at hf
      · cases hf
      · cases hf
        exact ⟨e.2, he, hp'⟩
    · rintro ⟨ps, h1, h2⟩
      refine ⟨(d, fileMeta o.inv em d ps), List.mem_filterMap.2 ⟨(d, ps), h1, ?_⟩, List.mem_map.2 ⟨p, h2, rfl⟩⟩
      rw [if_neg]
      intro h0
      have h0 : ps = [] := h0
      rw [h0] at h2
      cases h2
  unfold manifestPage
  constructor
  · intro hq
    rcases foldl_mset_sound (fun x => x) _ _ hq with h0 | ⟨p, hp, rfl⟩
    · cases h0
    · exact (hmem _ _).1 hp
  · intro hq
    obtain ⟨x, hx'⟩ := foldl_mset_complete (fun x => x) _ [] (Or.inr ⟨(p, d), (hmem p d).2 hq, rfl⟩)
    rcases foldl_mset_sound (fun x => x) _ _ hx' with h0 | ⟨p', hp, hpq⟩
    · cases h0
    · have hpq : p' = p := hpq
      subst hpq
      have := hg _ _ _ hq ((hmem _ _).1 hp)
      subst this
      exact hx'

/-- The same for the page of the manifest. -/
theorem C126_manifest_partial {V : Type} (E : DispEnv V) (fs : FS) (hp : InPlace E fs) (hn : NoMetaPanic E)
    (hgood : ∀ f o, E.openFolder fs f = .ok o → PathsFunctional o.inv.manifest) (rs : List DispReq) (i : Nat) (id shown : Str)
    (files : AMap Str Str) (hr : rs[i]? = some (.manifest id))
    (ha : (serveAll E (rs.map (fun r => (fs, r))) DispSt.fresh)[i]? = some (.done (.page shown files))) :
    RightManifest E fs id shown files := by
  rw [C125_kept_partial E fs hp hn rs, List.map_map, List.getElem?_map, hr] at ha
  simp only [Option.map_some, Function.comp, Option.some.injEq] at ha
  rw [serve_fresh hp hn] at ha
  injection ha with ha
  unfold freshAns at ha
  cases hl : loadReq E fs (.manifest id) with
  | error e => rw [hl] at ha; cases e <;> cases ha
  | ok o =>
    rw [hl] at ha
    cases hm : E.metaOf fs o with
    | error e => simp only [hm] at ha; cases e <;> cases ha
    | ok m =>
      simp only [hm] at ha
      cases ha
      have hl : E.openId fs id = .ok o := hl
      refine ⟨o, hl, rfl, ?_⟩
      have hl2 := hl
      unfold DispEnv.openId at hl2
      split at hl2
      · cases hl2
      · exact manifestPage_exact (hgood _ _ hl2) hm

theorem trimLeft_slashes {a s : Str} (h : ∀ c ∈ a, c = '/') : trimLeft (a ++ s) "/".toList = trimLeft s "/".toList := by
  induction a with
  | nil => rfl
  | cons c a ih =>
    have hc := h c (by simp)
    subst hc
    have e : trimLeft ('/' :: a ++ s) "/".toList = trimLeft (a ++ s) "/".toList := by
      unfold trimLeft
      rw [List.cons_append, List.dropWhile_cons_of_pos (by decide)]
    rw [e]
    exact ih (fun c hc => h c (by simp [hc]))

theorem trimLeft_start {s : Str} (h : s.head? ≠ some '/') : trimLeft s "/".toList = s := by
  cases s with
  | nil => rfl
  | cons c s =>
    unfold trimLeft
    rw [List.dropWhile_cons_of_neg]
    intro hc
    apply h
    have e : "/".toList = ['/'] := by decide
    rw [e] at hc
    simp at hc
    simp [hc]

/-- slashes around a path are taken away -/
theorem trim_slashes {a s b : Str} (ha : ∀ c ∈ a, c = '/') (hb : ∀ c ∈ b, c = '/') (hf : s.head? ≠ some '/')
    (hl : s.getLast? ≠ some '/') : trimRight (trimLeft (a ++ s ++ b) "/".toList) "/".toList = s := by
  rw [List.append_assoc, trimLeft_slashes ha]
  cases s with
  | nil =>
    have := trimLeft_slashes (s := []) hb
    rw [List.append_nil] at this
    rw [List.nil_append, this]
    rfl
  | cons c s =>
    rw [trimLeft_start (s := c :: s ++ b) hf]
    unfold trimRight
    rw [List.reverse_append, trimLeft_slashes (fun x hx => hb x (List.mem_reverse.1 hx)), trimLeft_start, List.reverse_reverse]
    rw [List.head?_reverse]
    exact hl

/-- A request for the object in a folder is answered with the id of the object in that folder. -/
theorem C126_folder_partial {V : Type} (E : DispEnv V) (fs : FS) (hp : InPlace E fs) (hn : NoMetaPanic E) (rs : List DispReq)
    (i : Nat) (path folder id : Str) (hr : rs[i]? = some (.folder path)) (hpath : ∃ a b, path = a ++ folder ++ b ∧
      (∀ c ∈ a, c = '/') ∧ ∀ c ∈ b, c = '/') (hf : folder.head? ≠ some '/') (hl : folder.getLast? ≠ some '/')
    (ha : (serveAll E (rs.map (fun r => (fs, r))) DispSt.fresh)[i]? = some (.done (.redirect id))) :
    ∃ o, E.openFolder fs folder = .ok o ∧ id = o.inv.id := by
  rw [C125_kept_partial E fs hp hn rs, List.map_map, List.getElem?_map, hr] at ha
  simp only [Option.map_some, Function.comp, Option.some.injEq] at ha
  rw [serve_fresh hp hn] at ha
  injection ha with ha
  have htrim : trimRight (trimLeft path "/".toList) "/".toList = folder := by
    obtain ⟨a, b, rfl, h1, h2⟩ := hpath
    exact trim_slashes h1 h2 hf hl
  unfold freshAns at ha
  cases hlo : loadReq E fs (.folder path) with
  | error e => rw [hlo] at ha; cases e <;> cases ha
  | ok o =>
    rw [hlo] at ha
    cases hm : E.metaOf fs o with
    | error e => simp only [hm] at ha; cases e <;> cases ha
    | ok m =>
      simp only [hm, useAns, useMeta] at ha
      cases ha
      simp only [loadReq, htrim] at hlo
      exact ⟨o, hlo, rfl⟩

/-! ## Two objects -/

/-- an object with one file -/
def dispInv (id d : Str) : Inv :=
  { ockInv with id := id, manifest := [(d, ["v1/content/f".toList])],
                versions := [("v1".toList, ⟨"t".toList, "m".toList, "u".toList, "mailto:u@x".toList, [(d, [id])]⟩)] }

/-- the object `a` after a second version -/
def dispInv2 : Inv :=
  { dispInv "a".toList "d1".toList with
    head := "v2".toList
    manifest := [("d1".toList, ["v1/content/f".toList]), ("d2".toList, ["v2/content/g".toList])]
    versions := [("v1".toList, ⟨"t".toList, "m".toList, "u".toList, "mailto:u@x".toList, [("d1".toList, ["a".toList])]⟩),
                 ("v2".toList, ⟨"t".toList, "m".toList, "u".toList, "mailto:u@x".toList,
                   [("d1".toList, ["a".toList]), ("d2".toList, ["g".toList])]⟩)] }

def dispWorld : World :=
  { exWorld with
    dec := fun b => if b = [9] then some { inv := dispInv "a".toList "d1".toList, vmeta := [] }
      else if b = [8] then some { inv := dispInv "b".toList "d2".toList, vmeta := [] }
      else if b = [7] then some { inv := dispInv2, vmeta := [] } else none
    hash := fun a => if a = "sha512".toList then some (fun b => if b = [1] then "d1".toList else if b = [2] then "d2".toList
      else "ad".toList) else none }

def dispFiles (folder : Str) (i c : Bytes) : FS :=
  [(folder ++ "/0=ocfl_object_1.1".toList, asBytes "ocfl_object_1.1\n".toList),
   (folder ++ "/inventory.json".toList, i), (folder ++ "/inventory.json.sha512".toList, asBytes "ad inventory.json".toList),
   (folder ++ "/v1/content/f".toList, c)]

/-- the objects `a` and `b` -/
def dispFS : FS := dispFiles "a".toList [9] [1] ++ dispFiles "b".toList [8] [2]

/-- the object `a` has got a second version -/
def dispFS2 : FS := dispFiles "a".toList [7] [1] ++ ("a/v2/content/g".toList, [2]) :: dispFiles "b".toList [8] [2]

def dispEnv : DispEnv Unit :=
  { w := dispWorld, env := exEnv, plain := true, blank := ockInv, ls := flatLayout, exts := fun _ _ _ => [] }

/-- folders with an inventory -/
theorem openFolder_named {V : Type} {E : DispEnv V} (hpl : E.plain = true) {fs : FS} {f : Str} {o : OpenObj}
    (h : E.openFolder fs f = .ok o) : f ∈ (mkeys fs).map (fun k => k.take (k.length - 15)) := by
  unfold DispEnv.openFolder at h
  obtain ⟨r, h, _⟩ := res_bind_eq_ok.1 h
  have hn : ∃ b, mget fs (under f rootInvPath) = some b := by
    unfold loadByFolder at h
    split at h
    · unfold loadInventory at h
      rw [mget_subFS] at h
      cases hb : mget fs (under f rootInvPath) with
      | some b => exact ⟨b, rfl⟩
      | none =>
        rw [hb, hpl] at h
        cases h
    · cases h
  obtain ⟨b, hb⟩ := hn
  refine List.mem_map.2 ⟨under f rootInvPath, mem_mkeys_of_mem (mem_of_mget hb), ?_⟩
  unfold under
  have : rootInvPath.length = 14 := by decide
  simp [this]

/-- what must be so in each of the folders -/
def eachFolder (E : DispEnv Unit) (fs : FS) (P : OpenObj → Bool) : Bool :=
  ((mkeys fs).map (fun k => k.take (k.length - 15))).all (fun f =>
    match E.openFolder fs f with
    | .ok o => P o
    | .error _ => true)

theorem eachFolder_ok {E : DispEnv Unit} (hpl : E.plain = true) {fs : FS} {P : OpenObj → Bool} (h : eachFolder E fs P = true)
    {f : Str} {o : OpenObj} (ho : E.openFolder fs f = .ok o) : P o = true := by
  have := List.all_eq_true.1 h f (openFolder_named hpl ho)
  rw [ho] at this
  exact this

def inPlaceCheck (E : DispEnv Unit) (fs : FS) (o : OpenObj) : Bool :=
  match E.openId fs o.inv.id with
  | .ok o' => decide (o' = o)
  | .error _ => false

theorem inPlace_of {E : DispEnv Unit} (hpl : E.plain = true) {fs : FS}
    (h : eachFolder E fs (inPlaceCheck E fs) = true) : InPlace E fs := by
  intro f o ho
  have := eachFolder_ok hpl h ho
  unfold inPlaceCheck at this
  split at this
  · rename_i o' h1
    rw [h1, of_decide_eq_true this]
  · cases this

theorem dispEnv_noPanic : NoMetaPanic dispEnv := by
  intro fs o e h
  cases h

set_option maxRecDepth 20000 in
theorem dispFS_inPlace : InPlace dispEnv dispFS := inPlace_of rfl (by decide)

set_option maxRecDepth 20000 in
theorem dispFS2_inPlace : InPlace dispEnv dispFS2 := inPlace_of rfl (by decide)

theorem dispInv_good1 : GoodInv (dispInv "a".toList "d1".toList) 1 :=
  goodInv_of (by decide) (by decide) (by decide) (by decide) (by decide)

theorem dispInv_good2 : GoodInv (dispInv "b".toList "d2".toList) 1 :=
  goodInv_of (by decide) (by decide) (by decide) (by decide) (by decide)

set_option maxRecDepth 20000 in
theorem dispFS_objects : eachFolder dispEnv dispFS
    (fun o => decide (o.inv = dispInv "a".toList "d1".toList ∨ o.inv = dispInv "b".toList "d2".toList)) = true := by decide

theorem dispFS_good : GoodObjects dispEnv dispFS := by
  intro f o ho
  rcases of_decide_eq_true (eachFolder_ok rfl dispFS_objects ho) with h | h
  · exact ⟨1, by rw [h]; exact dispInv_good1⟩
  · exact ⟨1, by rw [h]; exact dispInv_good2⟩

set_option maxRecDepth 20000 in
theorem disp_openA : dispEnv.openId dispFS "a".toList = .ok ⟨"a".toList, dispInv "a".toList "d1".toList⟩ := by decide

set_option maxRecDepth 20000 in
/-- **C124 does not hold in full**: while a request for the file of `a` is handled, a request for `b` is; the bytes are those of
the file in `b`. -/
theorem C124_full_fails : ¬ C124_full := by
  intro h
  obtain ⟨o, ps, p, h1, h2, h3, h4⟩ := h Unit dispEnv dispFS [0, 0, 0, 0, 1, 1, 0]
    [.download "a".toList "d1".toList, .download "b".toList "d2".toList] dispFS_inPlace dispEnv_noPanic
    "a".toList "d1".toList [2] (by
      have : interleave dispEnv dispFS [0, 0, 0, 0, 1, 1, 0] DispSt.fresh
          ([.download "a".toList "d1".toList, .download "b".toList "d2".toList].map (fun r => (r, .start))) =
        [(.download "a".toList "d1".toList, .done (.bytes [2])), (.download "b".toList "d2".toList, .getMeta)] := by rfl
      rw [this]
      simp)
  rw [disp_openA] at h1
  cases h1
  have h2 : ("d1".toList, ps) ∈ [("d1".toList, ["v1/content/f".toList])] := h2
  rw [List.mem_singleton] at h2
  cases h2
  rw [List.mem_singleton] at h3
  subst h3
  revert h4
  decide

set_option maxRecDepth 20000 in
/-- **C126 does not hold in full**: the page shows the id of `b` with the files of `a`. -/
theorem C126_full_fails : ¬ C126_full := by
  intro h
  obtain ⟨o, h1, h2, _⟩ := h Unit dispEnv dispFS [0, 0, 0, 0, 1, 1, 0]
    [.version "a".toList "v1".toList, .version "b".toList "v1".toList] dispFS_inPlace dispEnv_noPanic dispFS_good
    "a".toList "v1".toList "b".toList [("a".toList, "d1".toList)] (by
      have : interleave dispEnv dispFS [0, 0, 0, 0, 1, 1, 0] DispSt.fresh
          ([.version "a".toList "v1".toList, .version "b".toList "v1".toList].map (fun r => (r, .start))) =
        [(.version "a".toList "v1".toList, .done (.page "b".toList [("a".toList, "d1".toList)])),
         (.version "b".toList "v1".toList, .getMeta)] := by rfl
      rw [this]
      simp)
  rw [disp_openA] at h1
  cases h1
  revert h2
  decide

set_option maxRecDepth 20000 in
/-- **C125 does not hold in full**: after the object has got a new version, the server still shows the old one. -/
theorem C125_full_fails : ¬ C125_full := by
  intro h
  have := h Unit dispEnv [(dispFS, .manifest "a".toList), (dispFS2, .manifest "a".toList)] (by
    intro x hx
    rcases List.mem_cons.1 hx with rfl | hx
    · exact dispFS_inPlace
    · rw [List.mem_singleton] at hx
      subst hx
      exact dispFS2_inPlace) dispEnv_noPanic
  have e1 : serveAll dispEnv [(dispFS, .manifest "a".toList), (dispFS2, .manifest "a".toList)] DispSt.fresh =
      [.done (.page "a".toList [("v1/content/f".toList, "d1".toList)]),
       .done (.page "a".toList [("v1/content/f".toList, "d1".toList)])] := by rfl
  have e2 : (serve dispEnv dispFS2 (.manifest "a".toList) DispSt.fresh).2 =
      .done (.page "a".toList [("v1/content/f".toList, "d1".toList), ("v2/content/g".toList, "d2".toList)]) := by rfl
  unfold AnsweredAnew at this
  rw [e1] at this
  simp only [List.map_cons, List.map_nil] at this
  rw [e2] at this
  simp at this

def grewCheck (E : DispEnv Unit) (fs' : FS) (o : OpenObj) : Bool :=
  match E.openFolder fs' o.folder with
  | .ok o' => decide (o'.inv.id = o.inv.id) && o.inv.manifest.all (fun e => decide (e ∈ o'.inv.manifest))
  | .error _ => false

theorem grew_of {E : DispEnv Unit} (hpl : E.plain = true) {fs fs' : FS} (h : eachFolder E fs (grewCheck E fs') = true) :
    DiskGrew E fs fs' := by
  intro id o ho
  have hf := openId_folder ho
  unfold DispEnv.openId at ho ⊢
  split at ho
  · cases ho
  · rename_i h0
    rw [if_neg h0]
    have := eachFolder_ok hpl h ho
    unfold grewCheck at this
    split at this
    · rename_i o' h1
      rw [Bool.and_eq_true] at this
      refine ⟨o', by rw [← hf]; exact h1, of_decide_eq_true this.1, ?_⟩
      rintro d p ⟨ps, h2, h3⟩
      exact ⟨ps, of_decide_eq_true (List.all_eq_true.1 this.2 _ h2), h3⟩
    · cases this

set_option maxRecDepth 20000 in
/-- two requests, the object changed in between: the old metadata still lead to the right bytes -/
example : RightBytes dispEnv dispFS2 "a".toList "d1".toList [1] :=
  C124_download_partial dispEnv dispEnv_noPanic
    [(dispFS, .download "a".toList "d1".toList), (dispFS2, .download "a".toList "d1".toList)]
    ⟨dispFS_inPlace, grew_of rfl (by decide), dispFS2_inPlace⟩ 1 dispFS2 _ _ [1] rfl (by rfl)

set_option maxRecDepth 20000 in
/-- the pages of two objects, one after the other -/
example : RightPage dispEnv dispFS "b".toList "v1".toList "b".toList [("b".toList, "d2".toList)] :=
  C126_version_partial dispEnv dispFS dispFS_inPlace dispEnv_noPanic dispFS_good
    [.version "a".toList "v1".toList, .version "b".toList "v1".toList] 1 _ _ _ _ rfl (by rfl)

set_option maxRecDepth 20000 in
example : ∃ o, dispEnv.openFolder dispFS "b".toList = .ok o ∧ "b".toList = o.inv.id :=
  C126_folder_partial dispEnv dispFS dispFS_inPlace dispEnv_noPanic [.manifest "a".toList, .folder "//b/".toList] 1 "//b/".toList
    "b".toList "b".toList rfl ⟨"//".toList, "/".toList, by decide, by decide, by decide⟩ (by decide) (by decide) (by rfl)

set_option maxRecDepth 20000 in
example : RightManifest dispEnv dispFS "b".toList "b".toList [("v1/content/f".toList, "d2".toList)] := by
  refine C126_manifest_partial dispEnv dispFS dispFS_inPlace dispEnv_noPanic ?_
    [.manifest "a".toList, .folder "b".toList, .manifest "b".toList] 2 _ _ _ rfl (by rfl)
  intro f o ho
  rcases of_decide_eq_true (eachFolder_ok rfl dispFS_objects ho) with h | h
  · rw [h]
    rintro p d d' ⟨ps, h1, h2⟩ ⟨ps', h1', h2'⟩
    have h1 : (d, ps) ∈ [("d1".toList, ["v1/content/f".toList])] := h1
    have h1' : (d', ps') ∈ [("d1".toList, ["v1/content/f".toList])] := h1'
    rw [List.mem_singleton] at h1 h1'
    cases h1
    cases h1'
    rfl
  · rw [h]
    rintro p d d' ⟨ps, h1, h2⟩ ⟨ps', h1', h2'⟩
    have h1 : (d, ps) ∈ [("d2".toList, ["v1/content/f".toList])] := h1
    have h1' : (d', ps') ∈ [("d2".toList, ["v1/content/f".toList])] := h1'
    rw [List.mem_singleton] at h1 h1'
    cases h1
    cases h1'
    rfl

end Gocfl
