import Verif.Model.Extract
import Verif.Props.ContentMatch

/-!
# Extraction (C27, C28, C30, C31, C66)
-/

namespace Gocfl

/-! ## One digest at a time -/

/-- what extraction does for one digest -/
def extractOne (hash : Option (Bytes → Str)) (src : FS) (xp : ExtractPath) (man : DMap) (e : Str × List Str) : XOut :=
  extractState hash src xp man [e]

theorem extractState_cons {hash : Option (Bytes → Str)} {src : FS} {xp : ExtractPath} {man : DMap} {e : Str × List Str}
    {st : DMap} : extractState hash src xp man (e :: st) =
      match (extractOne hash src xp man e).err with
      | some _ => extractOne hash src xp man e
      | none =>
        ⟨(extractOne hash src xp man e).trace ++ (extractState hash src xp man st).trace,
          (extractOne hash src xp man e).lines ++ (extractState hash src xp man st).lines,
          (extractState hash src xp man st).err⟩ := by
  obtain ⟨d, names⟩ := e
  unfold extractOne
  simp only [extractState]
  cases mget man d with
  | none => rfl
  | some is =>
    cases is with
    | nil => rfl
    | cons i is =>
      simp only
      cases h : (extractNames hash src xp (i :: is) d names).err with
      | some err => simp
      | none => simp

theorem extractState_err_iff {hash : Option (Bytes → Str)} {src : FS} {xp : ExtractPath} {man st : DMap} :
    (extractState hash src xp man st).err = none ↔ ∀ e ∈ st, (extractOne hash src xp man e).err = none := by
  induction st with
  | nil => simp [extractState]
  | cons e st ih =>
    rw [extractState_cons]
    cases h : (extractOne hash src xp man e).err with
    | some x => simp [h]
    | none => simp [h, ih]

theorem extractState_ok {hash : Option (Bytes → Str)} {src : FS} {xp : ExtractPath} {man st : DMap}
    (h : (extractState hash src xp man st).err = none) :
    (extractState hash src xp man st).trace = st.flatMap (fun e => (extractOne hash src xp man e).trace) ∧
    (extractState hash src xp man st).lines = st.flatMap (fun e => (extractOne hash src xp man e).lines) := by
  induction st with
  | nil => simp [extractState]
  | cons e st ih =>
    have h1 := (extractState_err_iff.1 h) e (by simp)
    rw [extractState_cons, h1] at h ⊢
    simp only at h ⊢
    obtain ⟨a, b⟩ := ih h
    rw [a, b]; simp

/-- one file delivered: logical path, digest, extraction name, content -/
structure Delivery where
  path : Str
  digest : Str
  name : Str
  data : Bytes

def deliver (ds : List Delivery) : List FsOp := ds.flatMap (fun e => writeFile e.name e.data)

theorem deliver_append (a b : List Delivery) : deliver (a ++ b) = deliver a ++ deliver b := by simp [deliver]

/-- the delivery is right: the path has the digest in the state, its extraction name is the mapped path, the data
are those of the first content path of the digest and hash to it -/
structure RightDelivery (hash : Option (Bytes → Str)) (src : FS) (xp : ExtractPath) (man : DMap)
    (st : DMap) (x : Delivery) : Prop where
  state : ∃ names, (x.digest, names) ∈ st ∧ x.path ∈ names
  name : xp x.path = .ok (some x.name)
  content : ∃ m ms, mget man x.digest = some (m :: ms) ∧ mget src m = some x.data
  digest : ∃ h, hash = some h ∧ h x.data = x.digest

theorem extractNames_ok {hash : Option (Bytes → Str)} {src : FS} {xp : ExtractPath} {i : Str} {is : List Str} {d : Str}
    {names : List Str} (h : (extractNames hash src xp (i :: is) d names).err = none) :
    ∃ ds : List Delivery, (extractNames hash src xp (i :: is) d names).trace = deliver ds ∧
      (extractNames hash src xp (i :: is) d names).lines = ds.map (fun x => (d, x.name)) ∧
      (∀ x ∈ ds, x.digest = d ∧ x.path ∈ names ∧ xp x.path = .ok (some x.name) ∧ mget src i = some x.data ∧
        ∃ h, hash = some h ∧ h x.data = d) ∧
      ((∃ rest r, names = ds.map Delivery.path ++ r :: rest ∧ xp r = .ok none) ∨ names = ds.map Delivery.path) := by
  induction names with
  | nil => exact ⟨[], rfl, rfl, by simp, Or.inr rfl⟩
  | cons e es ih =>
    unfold extractNames at h ⊢
    cases hx : xp e with
    | error err => rw [hx] at h; simp at h
    | ok o =>
      cases o with
      | none => exact ⟨[], rfl, rfl, by simp, Or.inl ⟨es, e, rfl, hx⟩⟩
      | some x =>
        rw [hx] at h
        simp only at h ⊢
        unfold copyOut at h ⊢
        cases hs : mget src i with
        | none => rw [hs] at h; simp at h
        | some b =>
          rw [hs] at h
          simp only at h ⊢
          cases hash with
          | none => simp at h
          | some f =>
            simp only at h ⊢
            by_cases hb : f b = d
            · rw [if_pos hb] at h ⊢
              simp only at h ⊢
              obtain ⟨ds, h1, h2, h3, h4⟩ := ih h
              refine ⟨⟨e, d, x, b⟩ :: ds, ?_, ?_, ?_, ?_⟩
              · rw [h1]; rfl
              · rw [h2]; rfl
              · intro y hy
                rcases List.mem_cons.1 hy with rfl | hy
                · exact ⟨rfl, by simp, hx, rfl, f, rfl, hb⟩
                · obtain ⟨k1, k2, k3⟩ := h3 y hy
                  rw [hs] at k3
                  exact ⟨k1, by simp [k2], k3⟩
              · rcases h4 with ⟨rest, r, k1, k2⟩ | k1
                · exact Or.inl ⟨rest, r, by rw [k1]; rfl, k2⟩
                · exact Or.inr (by rw [k1]; rfl)
            · rw [if_neg hb] at h; simp at h

theorem extractOne_ok {hash : Option (Bytes → Str)} {src : FS} {xp : ExtractPath} {man : DMap} {e : Str × List Str}
    (h : (extractOne hash src xp man e).err = none) :
    ∃ ds : List Delivery, (extractOne hash src xp man e).trace = deliver ds ∧
      (extractOne hash src xp man e).lines = ds.map (fun x => (x.digest, x.name)) ∧
      (∀ x ∈ ds, x.digest = e.1 ∧ RightDelivery hash src xp man [e] x) ∧
      ((∃ rest r, e.2 = ds.map Delivery.path ++ r :: rest ∧ xp r = .ok none) ∨ e.2 = ds.map Delivery.path) := by
  obtain ⟨d, names⟩ := e
  unfold extractOne at h ⊢
  simp only [extractState] at h ⊢
  cases hm : mget man d with
  | none => rw [hm] at h; simp at h
  | some is =>
    cases is with
    | nil => rw [hm] at h; simp at h
    | cons i is =>
      rw [hm] at h
      simp only at h ⊢
      cases hn : (extractNames hash src xp (i :: is) d names).err with
      | some err => rw [hn] at h; simp at h
      | none =>
        obtain ⟨ds, h1, h2, h3, h4⟩ := extractNames_ok hn
        refine ⟨ds, by simp [h1], ?_, ?_, h4⟩
        · simp only [List.append_nil, h2]
          refine List.map_congr_left (fun x hx => ?_)
          rw [(h3 x hx).1]
        · intro x hx
          obtain ⟨k1, k2, k3, k4, f, k5, k6⟩ := h3 x hx
          exact ⟨k1, ⟨names, by simp [k1], k2⟩, k3, ⟨i, is, by rw [k1]; exact hm, k4⟩, f, k5, by rw [k1]; exact k6⟩

/-- Everything an extraction that succeeds does. -/
theorem extractState_deliveries {hash : Option (Bytes → Str)} {src : FS} {xp : ExtractPath} {man st : DMap}
    (h : (extractState hash src xp man st).err = none) :
    ∃ ds : List Delivery, (extractState hash src xp man st).trace = deliver ds ∧
      (extractState hash src xp man st).lines = ds.map (fun x => (x.digest, x.name)) ∧
      (∀ x ∈ ds, RightDelivery hash src xp man st x) ∧
      (∀ d names, (d, names) ∈ st → ∃ taken,
        (∀ p ∈ taken, ∃ x ∈ ds, x.path = p ∧ x.digest = d) ∧
        ((∃ rest r, names = taken ++ r :: rest ∧ xp r = .ok none) ∨ names = taken)) := by
  induction st with
  | nil => exact ⟨[], rfl, rfl, by simp, by simp⟩
  | cons e st ih =>
    have h1 := (extractState_err_iff.1 h) e (by simp)
    rw [extractState_cons, h1] at h ⊢
    simp only at h ⊢
    obtain ⟨ds, a1, a2, a3, a4⟩ := extractOne_ok h1
    obtain ⟨ds', b1, b2, b3, b4⟩ := ih h
    refine ⟨ds ++ ds', by rw [a1, b1, deliver_append], by rw [a2, b2, List.map_append], ?_, ?_⟩
    · intro x hx
      rcases List.mem_append.1 hx with hx | hx
      · obtain ⟨_, hr⟩ := a3 x hx
        obtain ⟨names, hn, hp⟩ := hr.state
        exact ⟨⟨names, by rw [List.mem_singleton] at hn; rw [hn]; simp, hp⟩, hr.name, hr.content, hr.digest⟩
      · have hr := b3 x hx
        obtain ⟨names, hn, hp⟩ := hr.state
        exact ⟨⟨names, List.mem_cons_of_mem _ hn, hp⟩, hr.name, hr.content, hr.digest⟩
    · intro d names hm
      rcases List.mem_cons.1 hm with rfl | hm
      · refine ⟨ds.map Delivery.path, ?_, a4⟩
        intro p hp
        obtain ⟨x, hx, rfl⟩ := List.mem_map.1 hp
        exact ⟨x, List.mem_append.2 (Or.inl hx), rfl, (a3 x hx).1⟩
      · obtain ⟨taken, k1, k2⟩ := b4 d names hm
        refine ⟨taken, fun p hp => ?_, k2⟩
        obtain ⟨x, hx, k3⟩ := k1 p hp
        exact ⟨x, List.mem_append.2 (Or.inr hx), k3⟩

theorem deliver_last {fs : FS} {ds : List Delivery} {x : Str} (h : x ∈ ds.map Delivery.name) :
    ∃ y ∈ ds, y.name = x ∧ mget (applyOps fs (deliver ds)) x = some y.data := by
  induction ds using List.reverseRecOn with
  | nil => simp at h
  | append_singleton ds y ih =>
    rw [deliver_append, applyOps_append]
    have hy : deliver [y] = writeFile y.name y.data := by simp [deliver]
    rw [hy]
    by_cases hx : y.name = x
    · exact ⟨y, by simp, hx, by rw [← hx, mget_writeFile]⟩
    · rw [mget_writeFile_ne _ _ hx]
      rw [List.map_append, List.mem_append] at h
      have h : x ∈ ds.map Delivery.name := by
        rcases h with h | h
        · exact h
        · simp only [List.map_cons, List.map_nil, List.mem_singleton] at h
          exact absurd h.symm hx
      obtain ⟨z, hz, h1, h2⟩ := ih h
      exact ⟨z, by simp [hz], h1, h2⟩

theorem deliver_other {fs : FS} {ds : List Delivery} {x : Str} (h : x ∉ ds.map Delivery.name) :
    mget (applyOps fs (deliver ds)) x = mget fs x := by
  apply mget_applyOps_ne
  intro op hop hp
  obtain ⟨y, hy, hop⟩ := List.mem_flatMap.1 hop
  simp only [writeFile, List.mem_cons, List.not_mem_nil, or_false] at hop
  have : op.path = y.name := by rcases hop with rfl | rfl <;> rfl
  exact h (List.mem_map.2 ⟨y, hy, by rw [← this]; exact hp⟩)

theorem creates_deliver (ds : List Delivery) : creates (deliver ds) = ds.map Delivery.name := by
  induction ds with
  | nil => rfl
  | cons y ds ih =>
    have : deliver (y :: ds) = writeFile y.name y.data ++ deliver ds := rfl
    rw [this, creates_append, ih]; rfl

/-- the manifest file -/
def manifestWrite (alg : Str) (wm : Bool) (lines : List (Str × Str)) : List FsOp :=
  if wm then writeFile (manifestName alg) (manifestText lines) else []

theorem extract_ok {w : World} {inv : Inv} {src : FS} {xp : ExtractPath} {v : Str} {wm : Bool}
    (h : (extract w inv src xp v wm).err = none) :
    ∃ ver ds, mget inv.versions (selectVersion inv v) = some ver ∧
      (extractState (w.hash inv.digestAlg) src xp inv.manifest ver.state).err = none ∧
      (extract w inv src xp v wm).trace = deliver ds ++ manifestWrite inv.digestAlg wm (extract w inv src xp v wm).lines ∧
      (extract w inv src xp v wm).lines = ds.map (fun x => (x.digest, x.name)) ∧
      (∀ x ∈ ds, RightDelivery (w.hash inv.digestAlg) src xp inv.manifest ver.state x) ∧
      (∀ d names, (d, names) ∈ ver.state → ∃ taken,
        (∀ p ∈ taken, ∃ x ∈ ds, x.path = p ∧ x.digest = d) ∧
        ((∃ rest r, names = taken ++ r :: rest ∧ xp r = .ok none) ∨ names = taken)) := by
  unfold extract at h ⊢
  cases hv : mget inv.versions (selectVersion inv v) with
  | none => rw [hv] at h; simp at h
  | some ver =>
    rw [hv] at h
    simp only at h ⊢
    cases he : (extractState (w.hash inv.digestAlg) src xp inv.manifest ver.state).err with
    | some e => rw [he] at h; simp at h
    | none =>
      obtain ⟨ds, h1, h2, h3, h4⟩ := extractState_deliveries he
      refine ⟨ver, ds, rfl, he, ?_, h2, h3, h4⟩
      simp only [h1]
      rfl

/-! ## C31 -/

/-- **C31.** The empty selector and `latest` select the head; every other selector selects the version of that name;
if there is no such version, the operation fails and nothing is written. -/
theorem C31_selector (w : World) (inv : Inv) (src : FS) (xp : ExtractPath) (v : Str) (wm : Bool) :
    (v = [] ∨ v = "latest".toList → inv.head ≠ "latest".toList →
      extract w inv src xp v wm = extract w inv src xp inv.head wm ∧
      ∀ d, getStateFiles inv v d = getStateFiles inv inv.head d) ∧
    (v ≠ [] → v ≠ "latest".toList → v ∉ mkeys inv.versions →
      (extract w inv src xp v wm).err ≠ none ∧ (extract w inv src xp v wm).trace = [] ∧
      ∀ d, ∃ e, getStateFiles inv v d = .error e) ∧
    (∀ p d, (mkeys inv.versions).Nodup → (∀ ver, (v, ver) ∈ inv.versions → (mkeys ver.state).Nodup) →
      v ≠ [] → v ≠ "latest".toList →
      ((∃ names, getStateFiles inv v d = .ok names ∧ p ∈ names) ↔ HasFile inv v p d)) := by
  refine ⟨?_, ?_, ?_⟩
  · intro hv hh
    have h1 : selectVersion inv v = inv.head := by
      unfold selectVersion; rw [if_pos hv.symm]
    have h2 : selectVersion inv inv.head = inv.head := by
      unfold selectVersion; split <;> rfl
    constructor
    · unfold extract; rw [h1, h2]
    · intro d; unfold getStateFiles; rw [h1, h2]
  · intro h1 h2 h3
    have hs : selectVersion inv v = v := by
      unfold selectVersion; rw [if_neg]; rintro (h | h)
      · exact h2 h
      · exact h1 h
    have hn : mget inv.versions v = none := mget_eq_none_iff.2 h3
    refine ⟨?_, ?_, fun d => ?_⟩
    · unfold extract; rw [hs, hn]; simp
    · unfold extract; rw [hs, hn]
    · unfold getStateFiles; rw [hs, hn]; exact ⟨_, rfl⟩
  · intro p d hnd hsd h1 h2
    have hs : selectVersion inv v = v := by
      unfold selectVersion; rw [if_neg]; rintro (h | h)
      · exact h2 h
      · exact h1 h
    refine ⟨?_, fun ⟨ver, ps, o1, o2, o3⟩ => ⟨ps, ?_, o3⟩⟩
    rotate_left
    · unfold getStateFiles
      rw [hs, mget_of_mem hnd o1]
      show (match mget ver.state d with | none => _ | some files => _) = _
      rw [mget_of_mem (hsd ver o1) o2]
    rintro ⟨names, hg, hp⟩
    unfold getStateFiles at hg
    rw [hs] at hg
    cases hv : mget inv.versions v with
    | none => rw [hv] at hg; cases hg
    | some ver =>
      rw [hv] at hg
      simp only at hg
      cases hd : mget ver.state d with
      | none => rw [hd] at hg; cases hg
      | some fs =>
        rw [hd] at hg
        cases hg
        exact ⟨ver, names, mem_of_mget hv, mem_of_mget hd, hp⟩

/-! ## C27 -/

/-- the extension manager with the content-subpath extension alone -/
def subPathXp (e : SubPathExt) (area : Str) : ExtractPath := fun p =>
  match e.extract p area with
  | .ok x => .ok (some x)
  | .error .wrongArea => .ok none
  | .error .invalidArea => .error (.error "invalid area")

/-- **C27, full statement** (false): after a successful extraction every extracted path has content of the digest
recorded for it. -/
def C27_full : Prop :=
  ∀ (w : World) (inv : Inv) (src fs : FS) (e : SubPathExt) (area v : Str) (wm : Bool),
    (mkeys inv.versions).Nodup → OneDigestPerPath inv → (extract w inv src (subPathXp e area) v wm).err = none →
    ∀ p d x, HasFile inv (selectVersion inv v) p d → subPathXp e area p = .ok (some x) →
      x ∈ creates (extract w inv src (subPathXp e area) v wm).trace →
      ∃ h b, w.hash inv.digestAlg = some h ∧
        mget (applyOps fs (extract w inv src (subPathXp e area) v wm).trace) x = some b ∧ h b = d

theorem RightDelivery.hasFile {hash : Option (Bytes → Str)} {src : FS} {xp : ExtractPath} {man : DMap} {inv : Inv}
    {v : Str} {ver : Version} (hv : mget inv.versions v = some ver) {x : Delivery}
    (h : RightDelivery hash src xp man ver.state x) : HasFile inv v x.path x.digest := by
  obtain ⟨names, h1, h2⟩ := h.state
  exact ⟨ver, names, mem_of_mget hv, h1, h2⟩

/-- **C27, without assumptions.**  After a successful extraction every file written (other than the manifest)
belongs to a logical path of the version: it has its extraction name, and its content has the recorded digest. -/
theorem C27_verified_content {w : World} {inv : Inv} {src fs : FS} {xp : ExtractPath} {v : Str} {wm : Bool}
    (h : (extract w inv src xp v wm).err = none) {x : Str} (hx : x ∈ creates (extract w inv src xp v wm).trace)
    (hm : wm = true → x ≠ manifestName inv.digestAlg) :
    ∃ p d f b, HasFile inv (selectVersion inv v) p d ∧ xp p = .ok (some x) ∧ w.hash inv.digestAlg = some f ∧
      mget (applyOps fs (extract w inv src xp v wm).trace) x = some b ∧ f b = d := by
  obtain ⟨ver, ds, h1, _, h2, h3, h4, h5⟩ := extract_ok h
  rw [h2, creates_append, creates_deliver] at hx
  have hx : x ∈ ds.map Delivery.name := by
    rcases List.mem_append.1 hx with hx | hx
    · exact hx
    · cases wm with
      | false => simp [manifestWrite, creates] at hx
      | true =>
        simp only [manifestWrite, if_true, creates, writeFile, List.filterMap_cons, List.filterMap_nil,
          List.mem_singleton] at hx
        exact absurd hx (hm rfl)
  obtain ⟨y, hy, hn, hg⟩ := deliver_last (fs := fs) hx
  obtain ⟨f, hf, hfd⟩ := (h4 y hy).digest
  refine ⟨y.path, y.digest, f, y.data, (h4 y hy).hasFile h1, by rw [← hn]; exact (h4 y hy).name, hf, ?_, hfd⟩
  rw [h2, applyOps_append]
  cases wm with
  | false => exact hg
  | true =>
    rw [show manifestWrite inv.digestAlg true (extract w inv src xp v true).lines =
      writeFile (manifestName inv.digestAlg) (manifestText (extract w inv src xp v true).lines) from rfl,
      mget_writeFile_ne _ _ (fun hc => hm rfl hc.symm)]
    exact hg

/-- **C27** if no two paths of the version have the same extraction name and none has that of the manifest: every
extracted path has content of the digest recorded for it. -/
theorem C27_verified_partial {w : World} {inv : Inv} {src fs : FS} {xp : ExtractPath} {v : Str} {wm : Bool}
    (h : (extract w inv src xp v wm).err = none)
    (hdist : ∀ p d p' d' x, HasFile inv (selectVersion inv v) p d → HasFile inv (selectVersion inv v) p' d' →
      xp p = .ok (some x) → xp p' = .ok (some x) → d = d')
    (hman : wm = true → ∀ p d, HasFile inv (selectVersion inv v) p d → xp p ≠ .ok (some (manifestName inv.digestAlg)))
    {p d x : Str} (hp : HasFile inv (selectVersion inv v) p d) (hpx : xp p = .ok (some x))
    (hx : x ∈ creates (extract w inv src xp v wm).trace) :
    ∃ f b, w.hash inv.digestAlg = some f ∧ mget (applyOps fs (extract w inv src xp v wm).trace) x = some b ∧ f b = d := by
  obtain ⟨p', d', f, b, h1, h2, h3, h4, h5⟩ := C27_verified_content (fs := fs) h hx
    (fun hw hc => hman hw p d hp (by rw [hpx, hc]))
  exact ⟨f, b, h3, h4, by rw [h5]; exact hdist p' d' p d x h1 hp h2 hpx⟩

/-! ## C28 -/

/-- **C28, full statement** (false): a successful extraction writes exactly the paths of the version that belong to
the area. -/
def C28_full : Prop :=
  ∀ (w : World) (inv : Inv) (src : FS) (e : SubPathExt) (area v : Str),
    (mkeys inv.versions).Nodup → OneDigestPerPath inv → (extract w inv src (subPathXp e area) v false).err = none →
    ∀ x, x ∈ creates (extract w inv src (subPathXp e area) v false).trace ↔
      ∃ p d, HasFile inv (selectVersion inv v) p d ∧ subPathXp e area p = .ok (some x)

/-- **C28, nothing else.**  A successful extraction writes only extraction names of paths of the version, and the
manifest if asked for. -/
theorem C28_nothing_else {w : World} {inv : Inv} {src : FS} {xp : ExtractPath} {v : Str} {wm : Bool}
    (h : (extract w inv src xp v wm).err = none) {x : Str} (hx : x ∈ creates (extract w inv src xp v wm).trace) :
    (∃ p d, HasFile inv (selectVersion inv v) p d ∧ xp p = .ok (some x)) ∨
      (wm = true ∧ x = manifestName inv.digestAlg) := by
  by_cases hm : wm = true ∧ x = manifestName inv.digestAlg
  · exact Or.inr hm
  · obtain ⟨p, d, _, _, h1, h2, _⟩ := C27_verified_content (fs := []) h hx (fun a b => hm ⟨a, b⟩)
    exact Or.inl ⟨p, d, h1, h2⟩

/-- **C28** if paths of one digest are all inside or all outside the area: a successful extraction writes exactly
the extraction names of the paths in the area (and the manifest). -/
theorem C28_complete_partial {w : World} {inv : Inv} {src : FS} {xp : ExtractPath} {v : Str} {wm : Bool}
    (hn : (mkeys inv.versions).Nodup) (h : (extract w inv src xp v wm).err = none)
    (huni : ∀ p q d x, HasFile inv (selectVersion inv v) p d → HasFile inv (selectVersion inv v) q d →
      xp p = .ok (some x) → xp q ≠ .ok none) (x : Str) :
    x ∈ creates (extract w inv src xp v wm).trace ↔
      (∃ p d, HasFile inv (selectVersion inv v) p d ∧ xp p = .ok (some x)) ∨
        (wm = true ∧ x = manifestName inv.digestAlg) := by
  refine ⟨C28_nothing_else h, ?_⟩
  obtain ⟨ver, ds, h1, _, h2, h3, h4, h5⟩ := extract_ok h
  rw [h2, creates_append, creates_deliver, List.mem_append]
  rintro (⟨p, d, hp, hpx⟩ | ⟨rfl, rfl⟩)
  · left
    obtain ⟨ver', names, k1, k2, k3⟩ := hp
    have : ver' = ver := by
      have := mget_of_mem hn k1
      rw [h1] at this; cases this; rfl
    subst this
    obtain ⟨taken, t1, t2⟩ := h5 d names k2
    have hnames : names = taken := by
      rcases t2 with ⟨rest, r, t2, t3⟩ | t2
      · exact absurd t3 (huni p r d x ⟨ver', names, k1, k2, k3⟩ ⟨ver', names, k1, k2, by rw [t2]; simp⟩ hpx)
      · exact t2
    obtain ⟨y, hy, hyp, _⟩ := t1 p (hnames ▸ k3)
    have := (h4 y hy).name
    rw [hyp, hpx] at this
    cases this
    exact List.mem_map.2 ⟨y, hy, rfl⟩
  · right; simp [manifestWrite, creates, writeFile]

theorem extractNames_stop {hash : Option (Bytes → Str)} {src : FS} {xp : ExtractPath} {is : List Str} {d r : Str}
    {pre rest : List Str} (hr : xp r = .ok none) :
    extractNames hash src xp is d (pre ++ r :: rest) = extractNames hash src xp is d pre := by
  induction pre with
  | nil => unfold extractNames; simp [hr]
  | cons e pre ih =>
    rw [List.cons_append]
    unfold extractNames
    rw [ih]

/-- **C28 fails** whenever a path shares its digest with a path outside the area that comes first: extraction is the
same as if the path (and all that follow) were not there. -/
theorem C28_full_fails_shared {hash : Option (Bytes → Str)} {src : FS} {xp : ExtractPath} {man : DMap} {d r : Str}
    {pre rest : List Str} (hr : xp r = .ok none) (before after : DMap) :
    extractState hash src xp man (before ++ (d, pre ++ r :: rest) :: after) =
      extractState hash src xp man (before ++ (d, pre) :: after) := by
  induction before with
  | nil =>
    simp only [List.nil_append, extractState]
    cases mget man d with
    | none => rfl
    | some is => cases is with
      | nil => rfl
      | cons i is => simp only [extractNames_stop hr]
  | cons e before ih =>
    rw [List.cons_append, List.cons_append, extractState_cons, extractState_cons, ih]

/-! ## C30 -/

/-- reading a manifest: one entry per line, digest and name separated by the first space -/
def readEntry (s : Str) : Str × Str := (s.takeWhile (· ≠ ' '), (s.dropWhile (· ≠ ' ')).drop 1)

def readManifest (s : Str) : List (Str × Str) := ((splitOn '\n' s).dropLast).map readEntry

theorem readManifest_str {lines : List (Str × Str)} (h : ∀ l ∈ lines, ' ' ∉ l.1 ∧ '\n' ∉ l.1 ∧ '\n' ∉ l.2) :
    readManifest (manifestStr lines) = lines := by
  induction lines with
  | nil => rfl
  | cons l lines ih =>
    obtain ⟨h1, h2, h3⟩ := h l (by simp)
    have hm : manifestStr (l :: lines) = (l.1 ++ ' ' :: l.2) ++ '\n' :: manifestStr lines := by
      simp [manifestStr]
    have hnl : '\n' ∉ l.1 ++ ' ' :: l.2 := by
      simp only [List.mem_append, List.mem_cons, not_or]
      exact ⟨h2, by decide, h3⟩
    have hsp : splitOn '\n' (manifestStr lines) ≠ [] := splitOn_ne_nil _ _
    rw [hm]
    unfold readManifest at ih ⊢
    rw [splitOn_append, splitOn_noSep hnl, List.cons_append, List.nil_append, List.dropLast_cons_of_ne_nil hsp,
      List.map_cons, ih (fun l hl => h l (List.mem_cons_of_mem _ hl))]
    congr 1
    unfold readEntry
    have ht : (l.1 ++ ' ' :: l.2).takeWhile (· ≠ ' ') = l.1 := by
      rw [List.takeWhile_append_of_pos (by intro c hc; simp; rintro rfl; exact h1 hc)]
      simp
    have hd : (l.1 ++ ' ' :: l.2).dropWhile (· ≠ ' ') = ' ' :: l.2 := by
      rw [List.dropWhile_append_of_pos (by intro c hc; simp; rintro rfl; exact h1 hc)]
      simp
    rw [ht, hd]; rfl

/-- **C30, full statement** (false): the manifest of a successful extraction lists exactly the extracted files, each
with the digest of its content. -/
def C30_full : Prop :=
  ∀ (w : World) (inv : Inv) (src fs : FS) (e : SubPathExt) (area v : Str),
    (mkeys inv.versions).Nodup → OneDigestPerPath inv → (extract w inv src (subPathXp e area) v true).err = none →
    let out := extract w inv src (subPathXp e area) v true
    mget (applyOps fs out.trace) (manifestName inv.digestAlg) = some (manifestText out.lines) ∧
    ∀ d x, (d, x) ∈ out.lines ↔ x ∈ creates out.trace ∧ x ≠ manifestName inv.digestAlg ∧
      ∃ h b, w.hash inv.digestAlg = some h ∧ mget (applyOps fs out.trace) x = some b ∧ h b = d

/-- **C30.** The manifest of a successful extraction lists exactly the extracted files, each with the digest of its
content, if no two paths of the version with different digests have the same extraction name and none has that of the
manifest. -/
theorem C30_manifest_partial {w : World} {inv : Inv} {src fs : FS} {xp : ExtractPath} {v : Str}
    (h : (extract w inv src xp v true).err = none)
    (hdist : ∀ p d p' d' x, HasFile inv (selectVersion inv v) p d → HasFile inv (selectVersion inv v) p' d' →
      xp p = .ok (some x) → xp p' = .ok (some x) → d = d')
    (hman : ∀ p d, HasFile inv (selectVersion inv v) p d → xp p ≠ .ok (some (manifestName inv.digestAlg))) :
    let out := extract w inv src xp v true
    mget (applyOps fs out.trace) (manifestName inv.digestAlg) = some (manifestText out.lines) ∧
    ∀ d x, (d, x) ∈ out.lines ↔ x ∈ creates out.trace ∧ x ≠ manifestName inv.digestAlg ∧
      ∃ f b, w.hash inv.digestAlg = some f ∧ mget (applyOps fs out.trace) x = some b ∧ f b = d := by
  obtain ⟨ver, ds, h1, _, h2, h3, h4, h5⟩ := extract_ok h
  intro out
  refine ⟨?_, ?_⟩
  · show mget (applyOps fs out.trace) _ = _
    rw [show out.trace = _ from h2, applyOps_append]
    exact mget_writeFile _ _ _
  · intro d x
    constructor
    · intro hx
      rw [show out.lines = _ from h3, List.mem_map] at hx
      obtain ⟨y, hy, he⟩ := hx
      cases he
      have hf := (h4 y hy).hasFile h1
      have hc : y.name ∈ creates out.trace := by
        rw [show out.trace = _ from h2, creates_append, creates_deliver]
        exact List.mem_append.2 (Or.inl (List.mem_map.2 ⟨y, hy, rfl⟩))
      refine ⟨hc, ?_, C27_verified_partial h hdist (fun _ => hman) hf (h4 y hy).name hc⟩
      intro hn
      exact hman _ _ hf (by rw [← hn]; exact (h4 y hy).name)
    · rintro ⟨hx, hne, f, b, hf, hb, hfd⟩
      have hx' := hx
      rw [show out.trace = _ from h2, creates_append, creates_deliver] at hx'
      have hx' : x ∈ ds.map Delivery.name := by
        rcases List.mem_append.1 hx' with hx | hx
        · exact hx
        · simp only [manifestWrite, if_true, creates, writeFile, List.filterMap_cons, List.filterMap_nil,
            List.mem_singleton] at hx
          exact absurd hx hne
      obtain ⟨y, hy, hn, hg⟩ := deliver_last (fs := fs) hx'
      rw [show out.trace = _ from h2, applyOps_append,
        show manifestWrite inv.digestAlg true (extract w inv src xp v true).lines =
          writeFile (manifestName inv.digestAlg) (manifestText (extract w inv src xp v true).lines) from rfl,
        mget_writeFile_ne _ _ (fun hc => hne hc.symm), hg] at hb
      cases hb
      obtain ⟨f', hf', hfd'⟩ := (h4 y hy).digest
      rw [hf] at hf'; cases hf'
      rw [show out.lines = _ from h3, List.mem_map]
      exact ⟨y, hy, by rw [← hfd, hfd', hn]⟩

/-- The text of the manifest can be read back if no extraction name has a line break (and digests have neither line
breaks nor spaces). -/
theorem C30_manifest_readable {lines : List (Str × Str)} (h : ∀ l ∈ lines, ' ' ∉ l.1 ∧ '\n' ∉ l.1 ∧ '\n' ∉ l.2) :
    readManifest (manifestStr lines) = lines := readManifest_str h

/-- A name with a line break makes the manifest of one file read as that of two. -/
theorem C30_full_fails_newline :
    manifestStr [("d1".toList, "x\nd2 y".toList)] = manifestStr [("d1".toList, "x".toList), ("d2".toList, "y".toList)] := by
  decide

/-! ## Examples -/

/-- an object with one version, whose state is `st`; contents `1` and `2` -/
def exObjX (st : DMap) : Inv :=
  { exInv with
    head := "v1".toList
    manifest := [("d1".toList, ["v1/content/a".toList]), ("d2".toList, ["v1/content/b".toList])]
    versions := [("v1".toList, ⟨"t1".toList, "m1".toList, "u".toList, "x".toList, st⟩)] }

def exSrc : FS := [("v1/content/a".toList, [1]), ("v1/content/b".toList, [2])]

/-- area `c` is the folder `data` -/
def exSubX : SubPathExt := ⟨"c".toList, [("c".toList, "data".toList)]⟩

theorem exObjX_nodup (st : DMap) : (mkeys (exObjX st).versions).Nodup := by
  show ["v1".toList].Nodup
  decide

theorem exObjX_oneDigest {st : DMap} (h : (st.flatMap (·.2)).Nodup) : OneDigestPerPath (exObjX st) := by
  intro v ver hv
  have hv : (v, ver) ∈ [("v1".toList, (⟨"t1".toList, "m1".toList, "u".toList, "x".toList, st⟩ : Version))] := hv
  rw [List.mem_singleton] at hv
  cases hv
  exact h

theorem exObjX_hasFile {st : DMap} {p d : Str} :
    HasFile (exObjX st) (selectVersion (exObjX st) []) p d ↔ ∃ ps, (d, ps) ∈ st ∧ p ∈ ps := by
  have hs : selectVersion (exObjX st) [] = "v1".toList := rfl
  rw [hs]
  constructor
  · rintro ⟨ver, ps, h1, h2, h3⟩
    have hv : ("v1".toList, ver) ∈ [("v1".toList, (⟨"t1".toList, "m1".toList, "u".toList, "x".toList, st⟩ : Version))] := h1
    rw [List.mem_singleton] at hv
    cases hv
    exact ⟨ps, h2, h3⟩
  · rintro ⟨ps, h2, h3⟩
    exact ⟨⟨"t1".toList, "m1".toList, "u".toList, "x".toList, st⟩, ps, List.mem_singleton.2 rfl, h2, h3⟩

/-- Two paths with one extraction name: `datax` is taken for a path of the folder `data`. -/
theorem C27_full_fails : ¬ C27_full := by
  intro hf
  obtain ⟨h, b, h1, h2, h3⟩ := hf exWorld4 (exObjX [("d1".toList, ["data/x".toList]), ("d2".toList, ["datax".toList])])
    exSrc [] exSubX [] [] false (exObjX_nodup _) (exObjX_oneDigest (by decide)) (by decide) "data/x".toList "d1".toList
    "x".toList (exObjX_hasFile.2 ⟨["data/x".toList], by simp, by simp⟩) (by decide) (by decide)
  have h4 : mget (applyOps [] (extract exWorld4 (exObjX [("d1".toList, ["data/x".toList]), ("d2".toList, ["datax".toList])])
    exSrc (subPathXp exSubX []) [] false).trace) "x".toList = some [2] := by decide
  rw [h4] at h2
  cases h2
  have : h = exHash4 := by
    have h1 : exWorld4.hash exInv.digestAlg = some h := h1
    rw [exWorld4_hash] at h1
    cases h1; rfl
  subst this
  exact absurd h3 (by decide)

/-- A file whose content is also in another area, under a path that comes first, is left out without an error. -/
theorem C28_full_fails : ¬ C28_full := by
  intro hf
  have h := (hf exWorld4 (exObjX [("d1".toList, ["meta/x".toList, "data/x".toList])])
    exSrc exSubX [] [] (exObjX_nodup _) (exObjX_oneDigest (by decide)) (by decide) "x".toList).2
    ⟨"data/x".toList, "d1".toList, exObjX_hasFile.2 ⟨["meta/x".toList, "data/x".toList], by simp, by simp⟩, by decide⟩
  exact absurd h (by decide)

/-- A file of the object with the name of the manifest is lost; the manifest lists itself. -/
theorem C30_full_fails : ¬ C30_full := by
  intro hf
  have h := (hf exWorld4 (exObjX [("d1".toList, ["manifest.sha512".toList])]) exSrc [] exSubX "full".toList []
    (exObjX_nodup _) (exObjX_oneDigest (by decide)) (by decide)).2 "d1".toList "manifest.sha512".toList
  have h1 : ("d1".toList, "manifest.sha512".toList) ∈
    (extract exWorld4 (exObjX [("d1".toList, ["manifest.sha512".toList])]) exSrc (subPathXp exSubX "full".toList) [] true).lines := by
    decide
  exact (h.1 h1).2.1 (by decide)

/-- two files in the area, one outside of it -/
def exThree : Inv := exObjX [("d1".toList, ["data/x".toList, "data/y".toList]), ("d2".toList, ["meta/z".toList])]

theorem exThree_paths {p d : Str} (h : HasFile exThree (selectVersion exThree []) p d) :
    (p, d) ∈ [("data/x".toList, "d1".toList), ("data/y".toList, "d1".toList), ("meta/z".toList, "d2".toList)] := by
  obtain ⟨ps, h1, h2⟩ := exObjX_hasFile.1 h
  simp only [List.mem_cons, List.not_mem_nil, or_false, Prod.mk.injEq] at h1
  rcases h1 with ⟨rfl, rfl⟩ | ⟨rfl, rfl⟩
  · simp only [List.mem_cons, List.not_mem_nil, or_false] at h2
    rcases h2 with rfl | rfl <;> simp
  · rw [List.mem_singleton] at h2; subst h2; simp

example : (extract exWorld4 exThree exSrc (subPathXp exSubX []) [] true).err = none ∧
    creates (extract exWorld4 exThree exSrc (subPathXp exSubX []) [] true).trace =
      ["x".toList, "y".toList, "manifest.sha512".toList] := by decide

theorem exThree_dist : ∀ p d p' d' x, HasFile exThree (selectVersion exThree []) p d →
    HasFile exThree (selectVersion exThree []) p' d' → subPathXp exSubX [] p = .ok (some x) →
    subPathXp exSubX [] p' = .ok (some x) → d = d' := by
  intro p d p' d' x h h' hx hx'
  have key : ∀ a ∈ [("data/x".toList, "d1".toList), ("data/y".toList, "d1".toList), ("meta/z".toList, "d2".toList)],
      ∀ b ∈ [("data/x".toList, "d1".toList), ("data/y".toList, "d1".toList), ("meta/z".toList, "d2".toList)],
      (subPathXp exSubX [] a.1).toOption.join.isSome = true → subPathXp exSubX [] a.1 = subPathXp exSubX [] b.1 →
      a.2 = b.2 := by decide
  exact key _ (exThree_paths h) _ (exThree_paths h') (by simp only [hx]; rfl) (by simp only [hx, hx'])

theorem exThree_uni : ∀ p q d x, HasFile exThree (selectVersion exThree []) p d →
    HasFile exThree (selectVersion exThree []) q d → subPathXp exSubX [] p = .ok (some x) →
    subPathXp exSubX [] q ≠ .ok none := by
  intro p q d x h h' hx hx'
  have key : ∀ a ∈ [("data/x".toList, "d1".toList), ("data/y".toList, "d1".toList), ("meta/z".toList, "d2".toList)],
      ∀ b ∈ [("data/x".toList, "d1".toList), ("data/y".toList, "d1".toList), ("meta/z".toList, "d2".toList)],
      a.2 = b.2 → (subPathXp exSubX [] a.1).toOption.join.isSome = true →
      (subPathXp exSubX [] b.1).toOption.join.isSome = true := by decide
  have := key _ (exThree_paths h) _ (exThree_paths h') rfl (by simp only [hx]; rfl)
  simp only [hx'] at this
  exact absurd this (by decide)

theorem exThree_man : ∀ p d, HasFile exThree (selectVersion exThree []) p d →
    subPathXp exSubX [] p ≠ .ok (some (manifestName exThree.digestAlg)) := by
  intro p d h hx
  have key : ∀ a ∈ [("data/x".toList, "d1".toList), ("data/y".toList, "d1".toList), ("meta/z".toList, "d2".toList)],
      (subPathXp exSubX [] a.1).toOption.join ≠ some (manifestName exThree.digestAlg) := by decide
  exact key _ (exThree_paths h) (by simp only [hx]; rfl)

example : ∃ f b, exWorld4.hash exThree.digestAlg = some f ∧
    mget (applyOps [] (extract exWorld4 exThree exSrc (subPathXp exSubX []) [] true).trace) "y".toList = some b ∧
    f b = "d1".toList :=
  C27_verified_partial (by decide) exThree_dist (fun _ => exThree_man) (p := "data/y".toList)
    (exObjX_hasFile.2 ⟨["data/x".toList, "data/y".toList], by simp, by simp⟩) (by decide) (by decide)

example : "y".toList ∈ creates (extract exWorld4 exThree exSrc (subPathXp exSubX []) [] true).trace :=
  (C28_complete_partial (exObjX_nodup _) (by decide) exThree_uni _).2
    (Or.inl ⟨"data/y".toList, "d1".toList, exObjX_hasFile.2 ⟨["data/x".toList, "data/y".toList], by simp, by simp⟩,
      by decide⟩)

example : ("d1".toList, "x".toList) ∈ (extract exWorld4 exThree exSrc (subPathXp exSubX []) [] true).lines :=
  ((C30_manifest_partial (fs := []) (by decide) exThree_dist exThree_man).2 _ _).2
    ⟨by decide, by decide, exHash4, [1], exWorld4_hash, by decide, by decide⟩

end Gocfl
