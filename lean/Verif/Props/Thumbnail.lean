import Verif.Model.Thumbnail
import Verif.Props.JsonL
import Verif.Props.ExtLoad

/-!
# C98–C101: thumbnails
-/

namespace Gocfl

/-! ## Specification -/

/-- the file `file` of the extension's folder has the content `pic` -/
def ThumbAt (t : ThumbWorld) (fs : FS) (file : Str) (pic : Bytes) : Prop :=
  mget fs (extPath (t.folder ++ '/' :: file)) = some pic

/-- What can happen to an object between opening a version and `UpdateObjectAfter`: files are streamed to the extension
(remembered with the first name and the content), and anything else that leaves the extension's folder alone. -/
inductive ThumbRun (t : ThumbWorld) (render : Bytes → Option Bytes) (o0 : Obj) :
    ThumbSt → AMap Str ThumbLine → List (Str × Bytes) → Prop where
  | start : ThumbRun t render o0 ⟨o0, 0, []⟩ [] []
  | other {st s h} (o : Obj) (ops : List FsOp) : ThumbRun t render o0 st s h → o.inv.head = st.obj.inv.head →
      o.trace = st.obj.trace ++ ops → (∀ op ∈ ops, ∀ f, op.path ≠ extPath (t.folder ++ '/' :: f)) →
      ThumbRun t render o0 ⟨o, st.n, st.lines⟩ s h
  | stream {st s h} (f : Str) (files : List Str) (data : Bytes) : ThumbRun t render o0 st s h →
      ThumbRun t render o0 (streamThumb t render st s (f :: files) data).1.st
        (streamThumb t render st s (f :: files) data).2 (h ++ [(f, data)])

/-- `data` is the content that is stored first for the digest, or else what the source folder has under the last of its names in the
version -/
def ThumbContent (m : MigWorld) (inv : Inv) (cs : Str) (names : List Str) (data : Bytes) : Prop :=
  ∃ src rest, names = src :: rest ∧
    (m.readContent src = some data ∨
      m.readContent src = none ∧ ∃ fs ver files p x, m.sourceFS = some fs ∧ mget inv.versions inv.head = some ver ∧
        mget ver.state cs = some (files ++ [p]) ∧ m.extractPath p = .ok x ∧ fs x = some data)

/-- `pic` is a thumbnail of the content with digest `cs`: of what was streamed for one of its content paths, or of what the
function for it made of its content -/
def ThumbOf (t : ThumbWorld) (render : Bytes → Option Bytes) (inv : Inv) (h : List (Str × Bytes))
    (todo : Str → Option ThumbFun) (cs : Str) (names : List Str) (pic : Bytes) : Prop :=
  (∃ f data, (f, data) ∈ h ∧ infoName inv.head f ∈ names ∧ render data = some pic) ∨
  ∃ f data, todo cs = some f ∧ ThumbContent t.m inv cs names data ∧ f.run data = some pic

/-! ## Names -/

theorem fmtIntPad_inj {w a b : Nat} (h : fmtIntPad w (a : Int) = fmtIntPad w (b : Int)) : a = b := by
  by_cases hw : w = 0
  · subst hw
    refine verName_inj (pad := 0) (pad' := 0) ?_
    have e : ∀ n : Nat, fmtIntPad 0 (n : Int) = fmtInt (n : Int) := by
      intro n
      show List.replicate (0 - (fmtNat n).length) '0' ++ fmtNat n = fmtNat n
      simp
    unfold verName
    rw [if_pos (by omega), if_pos (by omega), ← e, ← e, h]
  · refine verName_inj (pad := (w : Int)) (pad' := (w : Int)) ?_
    unfold verName
    rw [if_neg (by omega), if_neg (by omega)]
    simpa using h

theorem thumbBase_inj {ext : Str} {a b : Nat} (h : thumbBase ext a = thumbBase ext b) : a = b := by
  unfold thumbBase at h
  exact fmtIntPad_inj (List.append_cancel_right h)

/-- numbers are not used twice within a version, whatever the random numbers are -/
theorem thumbName_inj {cfg : ThumbCfg} {head : Str} {a b ra rb : Nat} {x : Str}
    (h1 : thumbName cfg head a ra = .ok x) (h2 : thumbName cfg head b rb = .ok x) : a = b := by
  unfold thumbName at h1 h2
  simp only at h1 h2
  split at h1
  · rename_i hs
    rw [if_pos hs] at h2
    cases h1
    injection h2 with h2
    have h2 := List.append_cancel_left h2
    injection h2 with _ h2
    have h2 := List.append_cancel_left h2
    injection h2 with _ h2
    exact (thumbBase_inj h2).symm
  · rename_i hs
    rw [if_neg hs] at h2
    split at h1
    · cases h1
      split at h2
      · injection h2 with h2
        have h2 := List.append_cancel_left h2
        injection h2 with _ h2
        have h2 := List.append_cancel_left h2
        injection h2 with _ h2
        injection h2 with _ h2
        injection h2 with _ h2
        injection h2 with _ h2
        injection h2 with _ h2
        exact (thumbBase_inj h2).symm
      · cases h2
    · cases h1

theorem thumbName_ne_nil {cfg : ThumbCfg} {head : Str} {n r : Nat} {x : Str} (h : thumbName cfg head n r = .ok x) : x ≠ [] := by
  unfold thumbName at h
  simp only at h
  split at h
  · cases h; exact List.append_ne_nil_of_right_ne_nil _ (List.cons_ne_nil _ _)
  · split at h
    · cases h; exact List.append_ne_nil_of_right_ne_nil _ (List.cons_ne_nil _ _)
    · cases h

theorem append_slash_inj_left {a b x y : Str} (ha : '/' ∉ a) (hb : '/' ∉ b) (h : a ++ '/' :: x = b ++ '/' :: y) : a = b := by
  induction a generalizing b with
  | nil =>
    cases b with
    | nil => rfl
    | cons c b =>
      injection h with h1 _
      exact absurd (h1 ▸ List.mem_cons_self) hb
  | cons c a ih =>
    cases b with
    | nil =>
      injection h with h1 _
      exact absurd (h1 ▸ List.mem_cons_self) ha
    | cons d b =>
      injection h with h1 h2
      rw [h1, ih (fun hm => ha (by simp [hm])) (fun hm => hb (by simp [hm])) h2]

/-- **C98**: thumbnails of different versions have different names. -/
theorem C98_versions_apart {cfg : ThumbCfg} {u v : Str} (hu : '/' ∉ u) (hv : '/' ∉ v) (huv : u ≠ v) {a b ra rb : Nat}
    {x y : Str} (h1 : thumbName cfg u a ra = .ok x) (h2 : thumbName cfg v b rb = .ok y) : x ≠ y := by
  rintro rfl
  unfold thumbName at h1 h2
  simp only at h1 h2
  split at h1
  · rename_i hs
    rw [if_pos hs] at h2
    cases h1
    injection h2 with h2
    have h2 := List.append_cancel_left h2
    injection h2 with _ h2
    exact huv (append_slash_inj_left hv hu h2).symm
  · rename_i hs
    rw [if_neg hs] at h2
    split at h1
    · cases h1
      split at h2
      · injection h2 with h2
        have h2 := List.append_cancel_left h2
        injection h2 with _ h2
        exact huv (append_slash_inj_left hv hu h2).symm
      · cases h2
    · cases h1

/-! ## Storing in the folder of the extension -/

theorem storeThumb_ext {t : ThumbWorld} (ht : t.cfg.store.storageType = "extension".toList) (o : Obj) (n : Nat) (pic : Bytes) :
    (∃ x, thumbName t.cfg o.inv.head n (t.rnd n) = .error x ∧ storeThumb t o n pic = ⟨⟨o, some x⟩, [], []⟩) ∨
    ∃ name, thumbName t.cfg o.inv.head n (t.rnd n) = .ok name ∧
      storeThumb t o n pic = ⟨ok (o.write (writeFile (extPath (t.folder ++ '/' :: name)) pic)), name, []⟩ := by
  unfold storeThumb
  cases h : thumbName t.cfg o.inv.head n (t.rnd n) with
  | error x => exact .inl ⟨x, rfl, rfl⟩
  | ok name =>
    refine .inr ⟨name, rfl, ?_⟩
    simp only
    rw [ht, if_neg (by decide), if_neg (by decide), if_pos (by decide)]

/-- the n-th thumbnail of the version, stored under `file` -/
def IsPic (t : ThumbWorld) (fs : FS) (o : Obj) (i : Nat) (file : Str) (pic : Bytes) : Prop :=
  thumbName t.cfg o.inv.head i (t.rnd i) = .ok file ∧ ThumbAt t (applyOps fs o.trace) file pic

theorem extFile_inj {folder a b : Str} (h : extPath (folder ++ '/' :: a) = extPath (folder ++ '/' :: b)) : a = b := by
  have h := List.append_cancel_left h
  have h := List.append_cancel_left h
  injection h

theorem IsPic.write {t : ThumbWorld} {fs : FS} {o : Obj} {i j : Nat} {file name : Str} {pic pic' : Bytes}
    (h : IsPic t fs o i file pic) (hij : i ≠ j) (hn : thumbName t.cfg o.inv.head j (t.rnd j) = .ok name) :
    IsPic t fs (o.write (writeFile (extPath (t.folder ++ '/' :: name)) pic')) i file pic := by
  refine ⟨h.1, ?_⟩
  unfold ThumbAt Obj.write
  simp only
  rw [applyOps_append, mget_writeFile_ne]
  · exact h.2
  · intro he
    have he := extFile_inj he
    subst he
    exact hij (thumbName_inj h.1 hn)

theorem isPic_new {t : ThumbWorld} {fs : FS} {o : Obj} {j : Nat} {name : Str} {pic : Bytes}
    (hn : thumbName t.cfg o.inv.head j (t.rnd j) = .ok name) :
    IsPic t fs (o.write (writeFile (extPath (t.folder ++ '/' :: name)) pic)) j name pic := by
  refine ⟨hn, ?_⟩
  unfold ThumbAt Obj.write
  simp only
  rw [applyOps_append, mget_writeFile]

theorem IsPic.other {t : ThumbWorld} {fs : FS} {o o' : Obj} {i : Nat} {file : Str} {pic : Bytes} {ops : List FsOp}
    (h : IsPic t fs o i file pic) (hh : o'.inv.head = o.inv.head) (ht : o'.trace = o.trace ++ ops)
    (ho : ∀ op ∈ ops, ∀ f, op.path ≠ extPath (t.folder ++ '/' :: f)) : IsPic t fs o' i file pic := by
  refine ⟨by rw [hh]; exact h.1, ?_⟩
  unfold ThumbAt
  rw [ht, applyOps_append, mget_applyOps_ne (fun op hop => ho op hop _)]
  exact h.2

/-- what holds while files are streamed -/
structure RunInv (t : ThumbWorld) (render : Bytes → Option Bytes) (fs : FS) (o0 : Obj) (st : ThumbSt)
    (s : AMap Str ThumbLine) (h : List (Str × Bytes)) : Prop where
  head : st.obj.inv.head = o0.inv.head
  lines : st.lines = []
  keys : (mkeys s).Nodup
  pics : ∀ e ∈ s, e.2.failed = false ∧ ∃ i f data pic, 0 < i ∧ i ≤ st.n ∧ (f, data) ∈ h ∧
    e.1 = infoName st.obj.inv.head f ∧ render data = some pic ∧ IsPic t fs st.obj i e.2.file pic
  apart : ∀ e ∈ s, ∀ e' ∈ s, e.1 ≠ e'.1 → e.2.file ≠ e'.2.file

theorem thumbRun_inv {t : ThumbWorld} (ht : t.cfg.store.storageType = "extension".toList) {render : Bytes → Option Bytes}
    {o0 : Obj} (fs : FS) {st : ThumbSt} {s : AMap Str ThumbLine} {h : List (Str × Bytes)}
    (hr : ThumbRun t render o0 st s h) : RunInv t render fs o0 st s h := by
  induction hr with
  | start => exact ⟨rfl, rfl, List.nodup_nil, by simp, by simp⟩
  | other o ops _ h1 h2 h3 ih =>
    refine ⟨h1.trans ih.head, ih.lines, ih.keys, ?_, ih.apart⟩
    intro e he
    obtain ⟨hf, i, f, data, pic, k1, k2, k3, k4, k5, k6⟩ := ih.pics e he
    exact ⟨hf, i, f, data, pic, k1, k2, k3, by rw [h1]; exact k4, k5, k6.other h1 h2 h3⟩
  | @stream st s h f files data _ ih =>
    have keep : ∀ st' : ThumbSt, st'.obj = st.obj → st'.lines = st.lines → st.n ≤ st'.n →
        RunInv t render fs o0 st' s (h ++ [(f, data)]) := by
      intro st' e1 e2 e3
      refine ⟨by rw [e1]; exact ih.head, by rw [e2]; exact ih.lines, ih.keys, ?_, ih.apart⟩
      intro e he
      obtain ⟨hf, i, g, d, pic, k1, k2, k3, k4, k5, k6⟩ := ih.pics e he
      exact ⟨hf, i, g, d, pic, k1, by omega, by simp [k3], by rw [e1]; exact k4, k5, by rw [e1]; exact k6⟩
    unfold streamThumb
    simp only
    split
    · exact keep _ rfl rfl (Nat.le_refl _)
    · split
      · exact keep _ rfl rfl (Nat.le_refl _)
      · rename_i hnew
        have hnew : infoName st.obj.inv.head f ∉ mkeys s := by
          rw [← mget_eq_none_iff]
          cases hm : mget s (infoName st.obj.inv.head f) with
          | none => rfl
          | some x => exact absurd (by rw [hm]; rfl) hnew
        cases hp : render data with
        | none => exact keep _ rfl rfl (Nat.le_refl _)
        | some pic =>
          simp only
          rcases storeThumb_ext ht st.obj (st.n + 1) pic with ⟨x, _, hs⟩ | ⟨name, hn, hs⟩
          · rw [hs]
            exact keep _ rfl rfl (Nat.le_succ _)
          · rw [hs]
            simp only [ok]
            rw [mset_fresh hnew]
            refine ⟨ih.head, ih.lines, ?_, ?_, ?_⟩
            · have := mkeys_mset_nodup ih.keys (infoName st.obj.inv.head f)
                (⟨name, [], [], false, "internal".toList⟩ : ThumbLine)
              rwa [mset_fresh hnew] at this
            · intro e he
              rw [List.mem_append, List.mem_singleton] at he
              rcases he with he | rfl
              · obtain ⟨hf, i, g, d, p, k1, k2, k3, k4, k5, k6⟩ := ih.pics e he
                exact ⟨hf, i, g, d, p, k1, by simp only; omega, by simp [k3], k4, k5, k6.write (by omega) hn⟩
              · exact ⟨rfl, st.n + 1, f, data, pic, by omega, Nat.le_refl _, by simp, rfl, hp, isPic_new hn⟩
            · have new : ∀ e ∈ s, e.2.file ≠ name := by
                intro e he hc
                obtain ⟨_, i, _, _, _, _, k2, _, _, _, k6⟩ := ih.pics e he
                have := thumbName_inj (hc ▸ k6.1) hn
                omega
              intro e he e' he' hne
              rw [List.mem_append, List.mem_singleton] at he he'
              rcases he with he | rfl
              · rcases he' with he' | rfl
                · exact ih.apart e he e' he' hne
                · exact new e he
              · rcases he' with he' | rfl
                · exact (new e' he').symm
                · exact absurd rfl hne

/-! ## At the end of the update -/

theorem thumbSource_content {m : MigWorld} {inv : Inv} {cs src : Str} {rest : List Str} {data : Bytes}
    (h : thumbSource m inv cs src = .ok (some data)) : ThumbContent m inv cs (src :: rest) data := by
  refine ⟨src, rest, rfl, ?_⟩
  unfold thumbSource at h
  cases hr : m.readContent src with
  | some b => rw [hr] at h; cases h; exact .inl rfl
  | none =>
    refine .inr ⟨rfl, ?_⟩
    rw [hr] at h
    simp only at h
    cases hs : m.sourceFS with
    | none => rw [hs] at h; cases h
    | some fs =>
      rw [hs] at h
      simp only at h
      split at h
      · cases h
      · rename_i ver hver
        split at h
        · cases h
        · rename_i files hfiles
          split at h
          · cases h
          · rename_i p hp
            obtain ⟨x, hx, h⟩ := res_bind_eq_ok.1 h
            injection h with h
            obtain ⟨l, rfl⟩ := List.getLast?_eq_some_iff.1 hp
            exact ⟨fs, ver, l, p, x, rfl, hver, hfiles, hx, h⟩

/-- what holds at the end of the update, after the files `done` -/
structure AfterInv (t : ThumbWorld) (render : Bytes → Option Bytes) (fs : FS) (s : AMap Str ThumbLine)
    (h : List (Str × Bytes)) (todo : Str → Option ThumbFun) (st0 st : ThumbSt) (done : List (Str × List Str)) : Prop where
  inv : st.obj.inv = st0.obj.inv
  le : st0.n ≤ st.n
  old : ∀ i file pic, i ≤ st0.n → IsPic t fs st0.obj i file pic → IsPic t fs st.obj i file pic
  made : ∀ l ∈ st.lines, l.failed = false → ∃ names pic i, (l.source, names) ∈ done ∧
    ThumbOf t render st0.obj.inv h todo l.source names pic ∧ i ≤ st.n ∧ IsPic t fs st.obj i l.file pic ∧
    (st0.n < i ∨ ∃ e ∈ s, e.1 ∈ names ∧ e.2.file = l.file)
  apart : st.lines.Pairwise (fun a b => a.failed = false → b.failed = false → a.file ≠ b.file)

theorem AfterInv.mono {t : ThumbWorld} {render : Bytes → Option Bytes} {fs : FS} {s : AMap Str ThumbLine}
    {h : List (Str × Bytes)} {todo : Str → Option ThumbFun} {st0 st : ThumbSt} {d1 : List (Str × List Str)}
    (a : AfterInv t render fs s h todo st0 st d1) (x : Str × List Str) : AfterInv t render fs s h todo st0 st (d1 ++ [x]) := by
  refine ⟨a.inv, a.le, a.old, ?_, a.apart⟩
  intro l hl hf
  obtain ⟨names, pic, i, k1, k2⟩ := a.made l hl hf
  exact ⟨names, pic, i, by simp [k1], k2⟩

/-- the next thumbnail is counted, but there is none -/
theorem AfterInv.count {t : ThumbWorld} {render : Bytes → Option Bytes} {fs : FS} {s : AMap Str ThumbLine}
    {h : List (Str × Bytes)} {todo : Str → Option ThumbFun} {st0 st : ThumbSt} {d1 : List (Str × List Str)}
    (a : AfterInv t render fs s h todo st0 st d1) :
    AfterInv t render fs s h todo st0 ⟨st.obj, st.n + 1, st.lines⟩ d1 := by
  refine ⟨a.inv, Nat.le_succ_of_le a.le, a.old, ?_, a.apart⟩
  intro l hl hf
  obtain ⟨names, pic, i, k1, k2, k3, k4⟩ := a.made l hl hf
  exact ⟨names, pic, i, k1, k2, Nat.le_succ_of_le k3, k4⟩

theorem AfterInv.failed {t : ThumbWorld} {render : Bytes → Option Bytes} {fs : FS} {s : AMap Str ThumbLine}
    {h : List (Str × Bytes)} {todo : Str → Option ThumbFun} {st0 st : ThumbSt} {d1 : List (Str × List Str)}
    (a : AfterInv t render fs s h todo st0 st d1) {l : ThumbLine} (hl : l.failed = true) :
    AfterInv t render fs s h todo st0 (st.record l) d1 := by
  refine ⟨a.inv, a.le, a.old, ?_, ?_⟩
  · intro l' hl' hf
    simp only [ThumbSt.record, List.mem_append, List.mem_singleton] at hl'
    rcases hl' with hl' | rfl
    · exact a.made l' hl' hf
    · rw [hl] at hf; cases hf
  · simp only [ThumbSt.record, List.pairwise_append]
    refine ⟨a.apart, by simp, ?_⟩
    intro x _ y hy _ hf
    rw [List.mem_singleton.1 hy, hl] at hf
    cases hf

theorem thumbFile_inv {t : ThumbWorld} (ht : t.cfg.store.storageType = "extension".toList) {render : Bytes → Option Bytes}
    {fs : FS} {o0 : Obj} {s : AMap Str ThumbLine} {h : List (Str × Bytes)} {todo : Str → Option ThumbFun} {st0 st : ThumbSt}
    (hr : RunInv t render fs o0 st0 s h) {done : List (Str × List Str)} {cs : Str} {names : List Str}
    (hd : ∀ x ∈ done, ∀ p ∈ x.2, p ∉ names)
    (a : AfterInv t render fs s h todo st0 st done) :
    AfterInv t render fs s h todo st0 (thumbFile t s todo st cs names).st (done ++ [(cs, names)]) := by
  have am := a.mono (cs, names)
  unfold thumbFile
  cases hfi : s.find? (fun e => decide (e.1 ∈ names)) with
  | some e =>
    simp only
    have hes := List.mem_of_find?_eq_some hfi
    have hen : e.1 ∈ names := by simpa using List.find?_some hfi
    obtain ⟨hf, i, f, data, pic, k1, k2, k3, k4, k5, k6⟩ := hr.pics e hes
    refine ⟨a.inv, a.le, a.old, ?_, ?_⟩
    · intro l hl hlf
      simp only [ThumbSt.record, List.mem_append, List.mem_singleton] at hl
      rcases hl with hl | rfl
      · exact am.made l hl hlf
      · refine ⟨names, pic, i, by simp, .inl ⟨f, data, k3, k4 ▸ hen, k5⟩, Nat.le_trans k2 a.le, a.old i _ pic k2 k6, .inr ⟨e, hes, hen, rfl⟩⟩
    · simp only [ThumbSt.record, List.pairwise_append]
      refine ⟨a.apart, by simp, ?_⟩
      intro x hx y hy hxf _ hxy
      rw [List.mem_singleton.1 hy] at hxy
      simp only at hxy
      obtain ⟨ns, p, j, m1, _, _, m4, m5⟩ := a.made x hx hxf
      rcases m5 with m5 | ⟨e', m5, m6, m7⟩
      · have h1 := m4.1
        rw [hxy, a.inv] at h1
        have := thumbName_inj h1 k6.1
        omega
      · refine hr.apart e' m5 e hes ?_ (m7.trans hxy)
        intro hee
        exact hd _ m1 _ m6 (hee ▸ hen)
  | none =>
    simp only
    cases htd : todo cs with
    | none => exact am
    | some f =>
      simp only
      cases names with
      | nil => exact am
      | cons src rest =>
        simp only
        cases hsrc : thumbSource t.m st.obj.inv cs src with
        | error e => exact am
        | ok c =>
          cases c with
          | none => exact am
          | some data =>
            simp only
            unfold makeThumb
            cases hrun : f.run data with
            | none => exact am.count.failed rfl
            | some pic =>
              simp only
              rcases storeThumb_ext ht st.obj (st.n + 1) pic with ⟨x, _, hs⟩ | ⟨name, hn, hs⟩
              · rw [hs]
                cases x with
                | error m => exact am.count.failed rfl
                | panic m => exact am.count
              · rw [hs]
                simp only [ok]
                have keep : ∀ i file p, i ≤ st.n → IsPic t fs st.obj i file p →
                    IsPic t fs (st.obj.write (writeFile (extPath (t.folder ++ '/' :: name)) pic)) i file p :=
                  fun i file p hi hp => hp.write (by omega) hn
                refine ⟨a.inv, Nat.le_succ_of_le a.le, ?_, ?_, ?_⟩
                · intro i file p hi hp
                  exact keep i file p (Nat.le_trans hi a.le) (a.old i file p hi hp)
                · intro l hl hlf
                  simp only [ThumbSt.record, List.mem_append, List.mem_singleton] at hl
                  rcases hl with hl | rfl
                  · obtain ⟨ns, p, i, k1, k2, k3, k4, k5⟩ := am.made l hl hlf
                    exact ⟨ns, p, i, k1, k2, Nat.le_succ_of_le k3, keep i _ p k3 k4, k5⟩
                  · exact ⟨src :: rest, pic, st.n + 1, by simp, .inr ⟨f, data, htd, a.inv ▸ thumbSource_content hsrc, hrun⟩,
                      Nat.le_refl _, isPic_new hn, .inl (Nat.lt_succ_of_le a.le)⟩
                · simp only [ThumbSt.record, List.pairwise_append]
                  refine ⟨a.apart, by simp, ?_⟩
                  intro x hx y hy hxf _ hxy
                  rw [List.mem_singleton.1 hy] at hxy
                  simp only at hxy
                  obtain ⟨_, p, j, _, _, m3, m4, _⟩ := a.made x hx hxf
                  have h1 := m4.1
                  rw [hxy] at h1
                  have := thumbName_inj h1 hn
                  omega

theorem thumbFiles_inv {t : ThumbWorld} (ht : t.cfg.store.storageType = "extension".toList) {render : Bytes → Option Bytes}
    {fs : FS} {o0 : Obj} {s : AMap Str ThumbLine} {h : List (Str × Bytes)} {todo : Str → Option ThumbFun} {st0 : ThumbSt}
    (hr : RunInv t render fs o0 st0 s h) (files : List (Str × List Str)) :
    ∀ (done : List (Str × List Str)) (st : ThumbSt), ((done ++ files).flatMap (·.2)).Nodup →
    AfterInv t render fs s h todo st0 st done →
    ∃ d, (∀ x ∈ d, x ∈ done ++ files) ∧ AfterInv t render fs s h todo st0 (thumbFiles t s todo st files).st d := by
  induction files with
  | nil => intro done st _ a; exact ⟨done, by simp, a⟩
  | cons x files ih =>
    obtain ⟨cs, names⟩ := x
    intro done st hnd a
    have hd : ∀ x ∈ done, ∀ p ∈ x.2, p ∉ names := by
      intro x hx p hp hpn
      rw [List.flatMap_append] at hnd
      exact List.disjoint_of_nodup_append hnd (List.mem_flatMap.2 ⟨x, hx, hp⟩) (by simp [hpn])
    have a1 := thumbFile_inv ht (cs := cs) hr hd a
    rw [thumbFiles]
    rcases hq : thumbFile t s todo st cs names with ⟨st1, e⟩
    rw [hq] at a1
    cases e with
    | some e => exact ⟨_, by
        intro x hx
        rw [List.mem_append, List.mem_singleton] at hx
        rcases hx with hx | rfl <;> simp [*], a1⟩
    | none =>
      simp only
      obtain ⟨d, h1, h2⟩ := ih (done ++ [(cs, names)]) st1 (by simpa using hnd) a1
      exact ⟨d, by simpa using h1, h2⟩

/-- **C98, full statement** (false): with thumbnails kept in the folder of the extension, after any session and at the end of
the update (whether or not it fails) — nothing panics, each file recorded as having a thumbnail has one: a file of its own
with a thumbnail of that file. -/
def C98_full : Prop :=
  ∀ (t : ThumbWorld) (render : Bytes → Option Bytes) (o0 : Obj) (st : ThumbSt) (s : AMap Str ThumbLine)
    (h : List (Str × Bytes)) (todo : Str → Option ThumbFun) (files : List (Str × List Str)) (fs : FS),
    t.cfg.store.storageType = "extension".toList → (∀ n, t.rnd n < 64) → ThumbRun t render o0 st s h →
    (files.flatMap (·.2)).Nodup → (∀ x ∈ files, x.2 ≠ []) → (∀ p m, t.m.extractPath p ≠ .error (.panic m)) →
    (∀ m, (thumbFiles t s todo st files).err ≠ some (.panic m)) ∧
    (∀ l ∈ (thumbFiles t s todo st files).st.lines, l.failed = false → ∃ names pic, (l.source, names) ∈ files ∧
      ThumbOf t render st.obj.inv h todo l.source names pic ∧
      ThumbAt t (applyOps fs (thumbFiles t s todo st files).st.obj.trace) l.file pic) ∧
    (thumbFiles t s todo st files).st.lines.Pairwise (fun a b => a.failed = false → b.failed = false → a.file ≠ b.file)

theorem own_file_aux {t : ThumbWorld} (ht : t.cfg.store.storageType = "extension".toList)
    {render : Bytes → Option Bytes} {o0 : Obj} {st : ThumbSt} {s : AMap Str ThumbLine} {h : List (Str × Bytes)}
    (hr : ThumbRun t render o0 st s h) (todo : Str → Option ThumbFun) {files : List (Str × List Str)}
    (hnd : (files.flatMap (·.2)).Nodup) (fs : FS) :
    (∀ l ∈ (thumbFiles t s todo st files).st.lines, l.failed = false → l.file ≠ [] ∧ ∃ names pic, (l.source, names) ∈ files ∧
      ThumbOf t render st.obj.inv h todo l.source names pic ∧
      ThumbAt t (applyOps fs (thumbFiles t s todo st files).st.obj.trace) l.file pic) ∧
    (thumbFiles t s todo st files).st.lines.Pairwise (fun a b => a.failed = false → b.failed = false → a.file ≠ b.file) := by
  have r := thumbRun_inv ht fs hr
  have a0 : AfterInv t render fs s h todo st st [] := by
    refine ⟨rfl, Nat.le_refl _, fun _ _ _ _ h => h, ?_, ?_⟩
    · rw [r.lines]; simp
    · rw [r.lines]; exact List.Pairwise.nil
  obtain ⟨d, h1, a⟩ := thumbFiles_inv ht r files [] st (by simpa using hnd) a0
  refine ⟨?_, a.apart⟩
  intro l hl hf
  obtain ⟨names, pic, i, k1, k2, _, k4, _⟩ := a.made l hl hf
  exact ⟨thumbName_ne_nil k4.1, names, pic, by simpa using h1 _ k1, k2, k4.2⟩

/-- **C98**: each file recorded as having a thumbnail has one — a file of its own with a thumbnail of that file; after any
session, and also if the update fails or panics half way. -/
theorem C98_own_file_partial {t : ThumbWorld} (ht : t.cfg.store.storageType = "extension".toList)
    {render : Bytes → Option Bytes} {o0 : Obj} {st : ThumbSt} {s : AMap Str ThumbLine} {h : List (Str × Bytes)}
    (hr : ThumbRun t render o0 st s h) (todo : Str → Option ThumbFun) {files : List (Str × List Str)}
    (hnd : (files.flatMap (·.2)).Nodup) (fs : FS) :
    (∀ l ∈ (thumbFiles t s todo st files).st.lines, l.failed = false → ∃ names pic, (l.source, names) ∈ files ∧
      ThumbOf t render st.obj.inv h todo l.source names pic ∧
      ThumbAt t (applyOps fs (thumbFiles t s todo st files).st.obj.trace) l.file pic) ∧
    (thumbFiles t s todo st files).st.lines.Pairwise (fun a b => a.failed = false → b.failed = false → a.file ≠ b.file) :=
  let h := own_file_aux ht hr todo hnd fs
  ⟨fun l hl hf => (h.1 l hl hf).2, h.2⟩

/-! ### Panics -/

theorem hexNat_length64 {r : Nat} (h : r < 64) : (hexNat r).length = if 16 ≤ r then 2 else 1 := by
  have : ∀ r : Fin 64, (hexNat r.val).length = if 16 ≤ r.val then 2 else 1 := by decide
  exact this ⟨r, h⟩

theorem thumbName_cases (cfg : ThumbCfg) (head : Str) (n : Nat) {r : Nat} (hr : r < 64) :
    (cfg.single = false ∧ r < 16 ∧ ∃ m, thumbName cfg head n r = .error (.panic m)) ∨
    (¬ (cfg.single = false ∧ r < 16) ∧ ∃ x, thumbName cfg head n r = .ok x) := by
  unfold thumbName
  have hl := hexNat_length64 hr
  cases hs : cfg.single with
  | true => exact .inr ⟨fun h => Bool.noConfusion h.1, _, rfl⟩
  | false =>
    by_cases h : r < 16
    · rw [if_neg (by omega)] at hl
      refine .inl ⟨rfl, h, ?_⟩
      obtain ⟨a, ha⟩ := List.length_eq_one_iff.1 hl
      rw [ha]
      exact ⟨_, rfl⟩
    · rw [if_pos (by omega)] at hl
      refine .inr ⟨fun h' => h h'.2, ?_⟩
      obtain ⟨a, b, ha⟩ := List.length_eq_two.1 hl
      rw [ha]
      exact ⟨_, rfl⟩

/-- **C98, exact**: the name of a thumbnail cannot be made iff several folders are to be used and the random number is
below 16. -/
theorem C98_name_panics_iff {cfg : ThumbCfg} {head : Str} {n r : Nat} (hr : r < 64) :
    (∃ m, thumbName cfg head n r = .error (.panic m)) ↔ cfg.single = false ∧ r < 16 := by
  rcases thumbName_cases cfg head n hr with ⟨h1, h2, h3⟩ | ⟨h1, x, h2⟩
  · exact ⟨fun _ => ⟨h1, h2⟩, fun _ => h3⟩
  · refine ⟨?_, fun h => absurd h h1⟩
    rintro ⟨m, hm⟩
    rw [h2] at hm
    cases hm

theorem thumbSource_no_panic {m : MigWorld} (hx : ∀ p e, m.extractPath p ≠ .error (.panic e)) {inv : Inv} {cs src : Str}
    {e : String} (h : thumbSource m inv cs src = .error (.panic e)) : False := by
  unfold thumbSource at h
  split at h
  · cases h
  · split at h
    · cases h
    · split at h
      · cases h
      · split at h
        · cases h
        · split at h
          · cases h
          · rename_i p _
            cases hp : m.extractPath p with
            | error x =>
              cases x with
              | error y => rw [hp] at h; cases h
              | panic y => exact hx p y hp
            | ok x => rw [hp] at h; cases h

/-- **C98**: nothing panics if all thumbnails go to one folder or if the random numbers are large enough. -/
theorem C98_no_panic_partial {t : ThumbWorld} (ht : t.cfg.store.storageType = "extension".toList)
    (hrnd : ∀ n, t.rnd n < 64) (hok : t.cfg.single = true ∨ ∀ n, 16 ≤ t.rnd n)
    (hx : ∀ p m, t.m.extractPath p ≠ .error (.panic m)) (s : AMap Str ThumbLine) (todo : Str → Option ThumbFun)
    (files : List (Str × List Str)) (hne : ∀ x ∈ files, x.2 ≠ []) :
    ∀ st m, (thumbFiles t s todo st files).err ≠ some (.panic m) := by
  have hstore : ∀ o n pic, (storeThumb t o n pic).out.err = none := by
    intro o n pic
    rcases storeThumb_ext ht o n pic with ⟨x, hn, _⟩ | ⟨name, _, hs⟩
    · rcases thumbName_cases t.cfg o.inv.head n (hrnd n) with ⟨h1, h2, _⟩ | ⟨_, y, h2⟩
      · rcases hok with hok | hok
        · rw [hok] at h1; cases h1
        · exact absurd h2 (Nat.not_lt.2 (hok n))
      · rw [hn] at h2; cases h2
    · rw [hs]; rfl
  induction files with
  | nil => intro st m h; cases h
  | cons x files ih =>
    obtain ⟨cs, names⟩ := x
    intro st m h
    rw [thumbFiles] at h
    rcases hq : thumbFile t s todo st cs names with ⟨st1, e⟩
    rw [hq] at h
    cases e with
    | none => exact ih (fun x hx => hne x (by simp [hx])) st1 m h
    | some e =>
      simp only at h
      injection h with h
      subst h
      have h1 : (thumbFile t s todo st cs names).err = some (.panic m) := by rw [hq]
      clear hq
      unfold thumbFile at h1
      split at h1
      · cases h1
      · split at h1
        · cases h1
        · split at h1
          · exact hne (cs, []) (by simp) rfl
          · split at h1
            · rename_i e he
              injection h1 with h1
              subst h1
              exact thumbSource_no_panic hx he
            · cases h1
            · rename_i f _ _ _ data _
              unfold makeThumb at h1
              split at h1
              · cases h1
              · rename_i pic _
                have h2 := hstore st.obj (st.n + 1) pic
                split at h1
                · rename_i hh
                  rw [hh] at h2
                  cases h2
                · cases h1
                · cases h1

/-! ### Example -/

def exThumbMig : MigWorld := ⟨exWorld, fun p => .ok p, fun p => if p = "v1/content/a".toList then some [1] else none, none⟩

/-- thumbnails in the folder of the extension; `single`, `r`: one folder, the random number -/
def exThumb (single : Bool) (r : Nat) : ThumbWorld :=
  ⟨exThumbMig, [], "NNNN-thumbnail".toList, ⟨"png".toList, single, ⟨"gzip".toList, "extension".toList, "data".toList⟩⟩,
    fun _ => r⟩

def exThumbFun : ThumbFun := ⟨"Image#01".toList, fun b => some (9 :: b)⟩

/-- the files of the example object -/
def exThumbFiles : List (Str × List Str) := exInv.manifest

def exThumbStart : ThumbSt := ⟨exMetaObj, 0, []⟩

/-- `b` was streamed and is an image -/
def exThumbStream (t : ThumbWorld) : ThumbOut × AMap Str ThumbLine :=
  streamThumb t (fun b => some (8 :: b)) exThumbStart [] ["b".toList] [2]

theorem exThumb_run (t : ThumbWorld) : ThumbRun t (fun b => some (8 :: b)) exMetaObj (exThumbStream t).1.st (exThumbStream t).2
    [("b".toList, [2])] := ThumbRun.stream "b".toList [] [2] .start

/-- one thumbnail from the stream and one made by a function, in one folder -/
example : (thumbFiles (exThumb true 0) (exThumbStream (exThumb true 0)).2 (fun _ => some exThumbFun)
    (exThumbStream (exThumb true 0)).1.st exThumbFiles).st.lines =
    [⟨"data/v2/00002.png".toList, "d1".toList, [], false, "Image#01".toList⟩,
     ⟨"data/v2/00001.png".toList, "d2".toList, [], false, "internal".toList⟩] := by decide

example : (thumbFiles (exThumb false 35) (exThumbStream (exThumb false 35)).2 (fun _ => some exThumbFun)
    (exThumbStream (exThumb false 35)).1.st exThumbFiles).st.lines =
    [⟨"data/v2/2/3/00002.png".toList, "d1".toList, [], false, "Image#01".toList⟩,
     ⟨"data/v2/2/3/00001.png".toList, "d2".toList, [], false, "internal".toList⟩] := by decide

example (fs : FS) := C98_own_file_partial (t := exThumb true 0) rfl (exThumb_run _) (fun _ => some exThumbFun)
  (files := exThumbFiles) (by decide) fs

example := C98_no_panic_partial (t := exThumb false 35) rfl (fun _ => show 35 < 64 by decide) (.inr fun _ => show 16 ≤ 35 by decide)
  (by intro p m h; cases h) [] (fun _ => some exThumbFun) exThumbFiles (by decide)

/-- **C98 fails**: with the default setting every fourth thumbnail, on average, is a panic. -/
theorem C98_full_fails : ¬ C98_full := by
  intro hf
  have h := (hf (exThumb false 7) (fun _ => none) exMetaObj exThumbStart [] [] (fun _ => some exThumbFun) exThumbFiles []
    rfl (fun _ => show 7 < 64 by decide) .start (by decide) (by decide) (by intro p m h; cases h)).1
  have : ((thumbFiles (exThumb false 7) [] (fun _ => some exThumbFun) exThumbStart exThumbFiles).err =
    some (.panic "index out of range: []rune(cs)[1]")) := by rfl
  exact h _ this

/-! ## C99: reading the records -/

/-- the file reported as a thumbnail: of the folder of the extension, or of the content of the version -/
def ThumbFound (t : ThumbWorld) (inv : Inv) (fs : FS) (file : Str) (pic : Bytes) : Prop :=
  if toLower t.cfg.store.storageType = "extension".toList then ThumbAt t fs file pic
  else mget fs (buildManifestName inv file) = some pic

/-- **C99, full statement** (false): after an update the metadata of the object can be read, and for each file reported as
having a thumbnail the name reported leads to one. -/
def C99_full : Prop :=
  ∀ (t : ThumbWorld) (todo : Str → Option ThumbFun) (st : ThumbSt) (files : List (Str × List Str)) (fs : FS) (n : Nat),
    WF st.obj.inv n → 0 < n → ValidComp st.obj.inv.contentDir → st.lines = [] → (thumbFiles t [] todo st files).err = none →
    (∀ x ∈ files, x ∈ st.obj.inv.manifest) →
    ∃ mt, thumbMeta t.exts t.cfg (thumbFiles t [] todo st files).st.obj.inv.manifest
        (thumbFiles t [] todo st files).st.lines = .ok mt ∧
      ∀ l ∈ (thumbFiles t [] todo st files).st.lines, ∀ e, mget mt l.source = some e →
        ∃ pic, ThumbFound t (thumbFiles t [] todo st files).st.obj.inv
          (applyOps fs (thumbFiles t [] todo st files).st.obj.trace) e.file pic

/-- the name reported for a record, extension storage -/
def reportedName (ext : Str) (l : ThumbLine) : Res Str := if l.file = [] then oldThumbName ext l.source else .ok l.file

theorem thumbMetaLine_ext {exts : List PathExt} {cfg : ThumbCfg} {man : DMap} {acc : AMap Str ThumbLine} {l : ThumbLine}
    (ht : cfg.store.storageType = "extension".toList) (hd : l.digest = []) (he : mget man [] = none)
    (hl : toLower l.source = l.source) (hm : (mget man l.source).isSome) {f : Str} (hf : reportedName cfg.ext l = .ok f) :
    thumbMetaLine exts cfg man acc l = .ok (mset acc l.source { l with file := f }) := by
  unfold thumbMetaLine
  unfold reportedName at hf
  have e1 : toLower ([] : Str) = [] := rfl
  simp only [hl, hm, if_true, hd, e1, he, Option.isSome_none, Bool.false_eq_true, if_false, hf, res_bind_ok]
  unfold thumbReported
  rw [ht, if_neg (by decide), if_neg (by decide), if_pos (by decide), res_bind_ok, ← hd]

theorem thumbMeta_ext {exts : List PathExt} {cfg : ThumbCfg} {man : DMap} {lines : List ThumbLine}
    (ht : cfg.store.storageType = "extension".toList) (he : mget man [] = none)
    (hl : ∀ l ∈ lines, l.digest = [] ∧ toLower l.source = l.source ∧ (mget man l.source).isSome ∧ 2 ≤ l.source.length)
    (hs : (lines.map (·.source)).Nodup) : ∀ acc : AMap Str ThumbLine,
    ∃ mt, lines.foldlM (thumbMetaLine exts cfg man) acc = .ok mt ∧
      (∀ k, k ∉ lines.map (·.source) → mget mt k = mget acc k) ∧
      ∀ l ∈ lines, ∃ f, reportedName cfg.ext l = .ok f ∧ mget mt l.source = some { l with file := f } := by
  induction lines with
  | nil => intro acc; exact ⟨acc, rfl, fun _ _ => rfl, by simp⟩
  | cons l ls ih =>
    intro acc
    obtain ⟨h1, h2, h3, h4⟩ := hl l (by simp)
    have : ∃ f, reportedName cfg.ext l = .ok f := by
      unfold reportedName
      split
      · unfold oldThumbName
        rcases hq : l.source with _ | ⟨a, _ | ⟨b, r⟩⟩
        · rw [hq] at h4; simp at h4
        · rw [hq] at h4; simp at h4
        · exact ⟨_, rfl⟩
      · exact ⟨_, rfl⟩
    obtain ⟨f, hf⟩ := this
    rw [List.foldlM_cons, thumbMetaLine_ext ht h1 he h2 h3 hf, res_bind_ok]
    rw [List.map_cons, List.nodup_cons] at hs
    obtain ⟨mt, k1, k2, k3⟩ := ih (fun x hx => hl x (by simp [hx])) hs.2 (mset acc l.source { l with file := f })
    refine ⟨mt, k1, ?_, ?_⟩
    · intro k hk
      simp only [List.map_cons, List.mem_cons, not_or] at hk
      rw [k2 k hk.2, mget_mset_ne _ (Ne.symm hk.1)]
    · intro x hx
      rcases List.mem_cons.1 hx with rfl | hx
      · exact ⟨f, hf, by rw [k2 _ hs.1, mget_mset_self]⟩
      · exact k3 x hx

/-- what the lines of an update look like, whatever the extension stores where -/
theorem thumbFiles_lines {t : ThumbWorld} (ht : t.cfg.store.storageType = "extension".toList) {s : AMap Str ThumbLine}
    (hsd : ∀ e ∈ s, e.2.digest = []) (todo : Str → Option ThumbFun) (files : List (Str × List Str)) : ∀ st : ThumbSt,
    ∃ ls, (thumbFiles t s todo st files).st.lines = st.lines ++ ls ∧ (ls.map (·.source)).Sublist (files.map (·.1)) ∧
      (∀ l ∈ ls, l.digest = []) ∧ (thumbFiles t s todo st files).st.obj.inv = st.obj.inv := by
  induction files with
  | nil => intro st; exact ⟨[], by simp [thumbFiles], by simp, by simp, rfl⟩
  | cons x files ih =>
    obtain ⟨cs, names⟩ := x
    intro st
    have one : (∃ l, (thumbFile t s todo st cs names).st.lines = st.lines ++ [l] ∧ l.source = cs ∧ l.digest = [] ∧
          (thumbFile t s todo st cs names).st.obj.inv = st.obj.inv) ∨
        (thumbFile t s todo st cs names).st.lines = st.lines ∧ (thumbFile t s todo st cs names).st.obj.inv = st.obj.inv := by
      unfold thumbFile
      split
      · rename_i e he
        exact .inl ⟨_, rfl, rfl, hsd e (List.mem_of_find?_eq_some he), rfl⟩
      · split
        · exact .inr ⟨rfl, rfl⟩
        · split
          · exact .inr ⟨rfl, rfl⟩
          · split
            · exact .inr ⟨rfl, rfl⟩
            · exact .inr ⟨rfl, rfl⟩
            · unfold makeThumb
              split
              · exact .inl ⟨_, rfl, rfl, rfl, rfl⟩
              · rename_i pic _
                rcases storeThumb_ext ht st.obj (st.n + 1) pic with ⟨x, _, hs⟩ | ⟨name, _, hs⟩
                · rw [hs]
                  cases x with
                  | error m => exact .inl ⟨_, rfl, rfl, rfl, rfl⟩
                  | panic m => exact .inr ⟨rfl, rfl⟩
                · rw [hs]
                  exact .inl ⟨_, rfl, rfl, rfl, rfl⟩
    rw [thumbFiles]
    rcases hq : thumbFile t s todo st cs names with ⟨st1, e⟩
    rw [hq] at one
    cases e with
    | some e =>
      rcases one with ⟨l, h1, h2, h3, h4⟩ | ⟨h1, h4⟩
      · exact ⟨[l], h1, by simp [h2], by simpa using h3, h4⟩
      · exact ⟨[], by simpa using h1, by simp, by simp, h4⟩
    | none =>
      simp only at one ⊢
      obtain ⟨ls, k1, k2, k3, k4⟩ := ih st1
      rcases one with ⟨l, h1, h2, h3, h4⟩ | ⟨h1, h4⟩
      · refine ⟨l :: ls, by rw [k1, h1]; simp, ?_, ?_, k4.trans h4⟩
        · simp only [List.map_cons, h2]; exact k2.cons_cons _
        · intro x hx
          rcases List.mem_cons.1 hx with rfl | hx
          · exact h3
          · exact k3 x hx
      · exact ⟨ls, by rw [k1, h1], by simpa using k2.cons _, k3, k4.trans h4⟩

theorem thumbRun_digest {t : ThumbWorld} (ht : t.cfg.store.storageType = "extension".toList) {render : Bytes → Option Bytes}
    {o0 : Obj} {st : ThumbSt} {s : AMap Str ThumbLine} {h : List (Str × Bytes)} (hr : ThumbRun t render o0 st s h) :
    ∀ e ∈ s, e.2.digest = [] := by
  induction hr with
  | start => simp
  | other o ops _ _ _ _ ih => exact ih
  | @stream st s h f files data _ ih =>
    unfold streamThumb
    simp only
    split
    · exact ih
    · split
      · exact ih
      · split
        · exact ih
        · rename_i pic _
          rcases storeThumb_ext ht st.obj (st.n + 1) pic with ⟨x, _, hs⟩ | ⟨name, _, hs⟩
          · rw [hs]; exact ih
          · rw [hs]
            intro e he
            rcases mem_mset_of he with he | he
            · rw [he]
            · exact ih e he

/-- **C99**: with thumbnails kept in the folder of the extension, after any session the records can be read; each file with
a thumbnail is reported under its digest, with the name of the file holding the thumbnail; and no file with a record is
handled again. -/
theorem C99_found_partial {t : ThumbWorld} (ht : t.cfg.store.storageType = "extension".toList)
    {render : Bytes → Option Bytes} {o0 : Obj} {st : ThumbSt} {s : AMap Str ThumbLine} {h : List (Str × Bytes)}
    (hr : ThumbRun t render o0 st s h) (todo : Str → Option ThumbFun) {files : List (Str × List Str)}
    (hnd : (files.flatMap (·.2)).Nodup) (hk : (files.map (·.1)).Nodup) {man : DMap} (hman : mget man [] = none)
    (hcs : ∀ x ∈ files, (mget man x.1).isSome ∧ toLower x.1 = x.1 ∧ 2 ≤ x.1.length) (fs : FS) :
    ∃ mt, thumbMeta t.exts t.cfg man (thumbFiles t s todo st files).st.lines = .ok mt ∧
      (∀ l ∈ (thumbFiles t s todo st files).st.lines, l.failed = false →
        ∃ e names pic, mget mt l.source = some e ∧ (l.source, names) ∈ files ∧
          ThumbOf t render st.obj.inv h todo l.source names pic ∧
          ThumbAt t (applyOps fs (thumbFiles t s todo st files).st.obj.trace) e.file pic) ∧
      ∀ l ∈ (thumbFiles t s todo st files).st.lines, ∀ fn, thumbTodo mt fn l.source = none := by
  obtain ⟨ls, h1, h2, h3, _⟩ := thumbFiles_lines ht (thumbRun_digest ht hr) todo files st
  rw [(thumbRun_inv ht fs hr).lines, List.nil_append] at h1
  obtain ⟨p1, _⟩ := own_file_aux ht hr todo hnd fs
  rw [h1] at p1 ⊢
  obtain ⟨mt, k1, _, k3⟩ := thumbMeta_ext (exts := t.exts) (cfg := t.cfg) (man := man) (lines := ls) ht hman (by
    intro l hl
    obtain ⟨x, hx, hxl⟩ := List.mem_map.1 (h2.subset (List.mem_map.2 ⟨l, hl, rfl⟩))
    obtain ⟨q1, q2, q3⟩ := hcs x hx
    rw [hxl] at q1 q2 q3
    exact ⟨h3 l hl, q2, q1, q3⟩) (h2.nodup hk) []
  refine ⟨mt, k1, ?_, ?_⟩
  · intro l hl hf
    obtain ⟨hne, names, pic, q1, q2, q3⟩ := p1 l hl hf
    obtain ⟨f, hf', hm⟩ := k3 l hl
    unfold reportedName at hf'
    rw [if_neg hne] at hf'
    cases hf'
    exact ⟨_, names, pic, hm, q1, q2, q3⟩
  · intro l hl fn
    obtain ⟨f, _, hm⟩ := k3 l hl
    unfold thumbTodo
    rw [hm]
    rfl

example (fs : FS) := C99_found_partial (t := exThumb true 0) rfl (exThumb_run _) (fun _ => some exThumbFun)
  (files := exThumbFiles) (by decide) (by decide) (man := exInv.manifest) (by decide) (by decide) fs

/-- what is reported in the example -/
example : (thumbMeta [] (exThumb true 0).cfg exInv.manifest [⟨"data/v2/00002.png".toList, "d1".toList, [], false, []⟩]).toOption =
    some [("d1".toList, ⟨"data/v2/00002.png".toList, "d1".toList, [], false, []⟩)] := by decide

/-- a command that fails -/
def exThumbBroken : ThumbFun := ⟨"Image#01".toList, fun _ => none⟩

theorem exThumb_contentDir : ValidComp exMetaObj.inv.contentDir := exInv_contentDir

/-- **C99 fails** for a file whose thumbnail could not be made: it is reported as having one. -/
theorem C99_full_fails_failed : ¬ C99_full := by
  intro hf
  obtain ⟨mt, h1, h2⟩ := hf (exThumb true 0) (fun _ => some exThumbBroken) exThumbStart exThumbFiles [] 2 exMetaObj_wf
    (by decide) exThumb_contentDir rfl rfl (by intro x hx; exact hx)
  have e1 : (thumbFiles (exThumb true 0) [] (fun _ => some exThumbBroken) exThumbStart exThumbFiles).st =
      ⟨exMetaObj, 1, [⟨[], "d1".toList, [], true, "Image#01".toList⟩]⟩ := rfl
  rw [e1] at h1 h2
  have e2 : thumbMeta (exThumb true 0).exts (exThumb true 0).cfg exMetaObj.inv.manifest
      [⟨[], "d1".toList, [], true, "Image#01".toList⟩] =
      .ok [("d1".toList, ⟨"data/d/1/d1.png".toList, "d1".toList, [], true, "Image#01".toList⟩)] := rfl
  rw [e2] at h1
  cases h1
  obtain ⟨pic, h3⟩ := h2 _ List.mem_cons_self _ rfl
  unfold ThumbFound ThumbAt at h3
  rw [if_pos (by decide)] at h3
  cases h3

/-- thumbnails in the area `metadata` (folder `sys/meta`) -/
def exThumbArea : ThumbWorld :=
  ⟨exThumbMig, [exSub.toPathExt], "NNNN-thumbnail".toList,
    ⟨"png".toList, true, ⟨"gzip".toList, "area".toList, "metadata".toList⟩⟩, fun _ => 0⟩

/-- **C99 fails** for thumbnails in an area: the folder of the area is in the name twice. -/
theorem C99_full_fails : ¬ C99_full := by
  intro hf
  obtain ⟨mt, h1, h2⟩ := hf exThumbArea (fun _ => some exThumbFun) exThumbStart exThumbFiles [] 2 exMetaObj_wf
    (by decide) exThumb_contentDir rfl (by decide) (by intro x hx; exact hx)
  have e1 : (thumbFiles exThumbArea [] (fun _ => some exThumbFun) exThumbStart exThumbFiles).st.lines =
      [⟨"sys/meta/thumbnails/v2/00001.png".toList, "d1".toList, "a00".toList, false, "Image#01".toList⟩] := by decide
  have e2 : ((thumbMeta exThumbArea.exts exThumbArea.cfg
      (thumbFiles exThumbArea [] (fun _ => some exThumbFun) exThumbStart exThumbFiles).st.obj.inv.manifest
      [⟨"sys/meta/thumbnails/v2/00001.png".toList, "d1".toList, "a00".toList, false, "Image#01".toList⟩]).toOption.bind
      (fun mt => mget mt "d1".toList)).map (·.file) = some "sys/meta/sys/meta/thumbnails/v2/00001.png".toList := by decide
  rw [e1] at h1 h2
  rw [h1] at e2
  simp only [Except.toOption, Option.bind_some, Option.map_eq_some_iff] at e2
  obtain ⟨e, he, hfile⟩ := e2
  obtain ⟨pic, h3⟩ := h2 _ List.mem_cons_self e he
  unfold ThumbFound at h3
  rw [if_neg (by decide), hfile] at h3
  have e4 : mget (applyOps [] (thumbFiles exThumbArea [] (fun _ => some exThumbFun) exThumbStart exThumbFiles).st.obj.trace)
      (buildManifestName (thumbFiles exThumbArea [] (fun _ => some exThumbFun) exThumbStart exThumbFiles).st.obj.inv
        "sys/meta/sys/meta/thumbnails/v2/00001.png".toList) = none := by decide
  rw [e4] at h3
  cases h3

/-- the thumbnail itself is there, under the name that was recorded -/
example : mget (applyOps [] (thumbFiles exThumbArea [] (fun _ => some exThumbFun) exThumbStart exThumbFiles).st.obj.trace)
      (buildManifestName (thumbFiles exThumbArea [] (fun _ => some exThumbFun) exThumbStart exThumbFiles).st.obj.inv
        "sys/meta/thumbnails/v2/00001.png".toList) = some [9, 1] := by decide

/-- an object made by another program, with digests in upper case -/
def exUpperInv : Inv :=
  { exInv with
    writeable := true
    manifest := [("D1".toList, ["v1/content/a".toList])] }

/-- **C99 fails** for objects with digests in upper case: after a thumbnail was made, the metadata cannot be read any
more. -/
theorem C99_full_fails_case : ¬ C99_full := by
  intro hf
  obtain ⟨mt, h1, _⟩ := hf (exThumb true 0) (fun _ => some exThumbFun) ⟨⟨exUpperInv, [], false, []⟩, 0, []⟩
    exUpperInv.manifest [] 2 ⟨⟨exInv_gapFree.1, exInv_gapFree.2⟩, exInv_mapKeysOk⟩
    (by decide) exThumb_contentDir rfl rfl (by intro x hx; exact hx)
  have e : (thumbMeta (exThumb true 0).exts (exThumb true 0).cfg
    (thumbFiles (exThumb true 0) [] (fun _ => some exThumbFun) ⟨⟨exUpperInv, [], false, []⟩, 0, []⟩
      exUpperInv.manifest).st.obj.inv.manifest
    (thumbFiles (exThumb true 0) [] (fun _ => some exThumbFun) ⟨⟨exUpperInv, [], false, []⟩, 0, []⟩
      exUpperInv.manifest).st.lines).toOption = none := by decide
  rw [h1] at e
  cases e

/-! ## C100: what was stored is recorded -/

/-- **C100, full statement** (false): if a file was streamed and a thumbnail stored for it, and the content of the file is in
the manifest, then after an update without errors a thumbnail is recorded for it and no second one has been made. -/
def C100_full : Prop :=
  ∀ (t : ThumbWorld) (render : Bytes → Option Bytes) (o0 : Obj) (st : ThumbSt) (todo : Str → Option ThumbFun)
    (files : List (Str × List Str)) (f cs : Str) (names : List Str) (data : Bytes),
    t.cfg.store.storageType = "extension".toList →
    (streamThumb t render ⟨o0, 0, []⟩ [] [f] data).1 = ⟨st, none⟩ → st.n = 1 → files = [(cs, names)] →
    pathJoin [o0.inv.head, o0.inv.contentDir, f] ∈ names →
    (thumbFiles t (streamThumb t render ⟨o0, 0, []⟩ [] [f] data).2 todo st files).err = none →
    (thumbFiles t (streamThumb t render ⟨o0, 0, []⟩ [] [f] data).2 todo st files).st.n = 1 ∧
    ∃ l ∈ (thumbFiles t (streamThumb t render ⟨o0, 0, []⟩ [] [f] data).2 todo st files).st.lines,
      l.source = cs ∧ l.failed = false

theorem thumbFiles_append {t : ThumbWorld} {s : AMap Str ThumbLine} {todo : Str → Option ThumbFun}
    (a b : List (Str × List Str)) : ∀ st : ThumbSt, (thumbFiles t s todo st (a ++ b)).err = none →
    (thumbFiles t s todo st a).err = none ∧
      thumbFiles t s todo st (a ++ b) = thumbFiles t s todo (thumbFiles t s todo st a).st b := by
  induction a with
  | nil => intro st _; exact ⟨rfl, rfl⟩
  | cons x a ih =>
    obtain ⟨cs, names⟩ := x
    intro st h
    rw [List.cons_append] at h ⊢
    rw [thumbFiles] at h ⊢
    rw [thumbFiles]
    rcases hq : thumbFile t s todo st cs names with ⟨st1, e⟩
    rw [hq] at h
    cases e with
    | some e => cases h
    | none => exact ih st1 h

/-- **C100**: a thumbnail made while a file was added is recorded for that file if the name under which it was remembered
(version, the word `content`, logical path) is a content path of the file; and it is the only one made for it. -/
theorem C100_recorded_partial {t : ThumbWorld} {s : AMap Str ThumbLine} {todo : Str → Option ThumbFun} {st : ThumbSt}
    {files : List (Str × List Str)} (h : (thumbFiles t s todo st files).err = none) {k : Str} {x : ThumbLine}
    (hx : (k, x) ∈ s) {cs : Str} {names : List Str} (hf : (cs, names) ∈ files) (hk : k ∈ names) :
    (∃ e ∈ s, e.1 ∈ names ∧ { e.2 with source := cs } ∈ (thumbFiles t s todo st files).st.lines) ∧
    ∀ st', (thumbFile t s todo st' cs names).st.n = st'.n ∧ (thumbFile t s todo st' cs names).st.obj = st'.obj := by
  have hfind : ∃ e, s.find? (fun e => decide (e.1 ∈ names)) = some e := by
    cases hq : s.find? (fun e => decide (e.1 ∈ names)) with
    | some e => exact ⟨e, rfl⟩
    | none =>
      have := List.find?_eq_none.1 hq _ hx
      simp [hk] at this
  obtain ⟨e, he⟩ := hfind
  have hone : ∀ st', thumbFile t s todo st' cs names = ⟨st'.record { e.2 with source := cs }, none⟩ := by
    intro st'; unfold thumbFile; rw [he]
  refine ⟨⟨e, List.mem_of_find?_eq_some he, by simpa using List.find?_some he, ?_⟩, fun st' => by rw [hone]; exact ⟨rfl, rfl⟩⟩
  obtain ⟨a, b, rfl⟩ := List.append_of_mem hf
  obtain ⟨_, h2⟩ := thumbFiles_append a ((cs, names) :: b) st h
  rw [h2] at h ⊢
  rw [thumbFiles, hone] at h ⊢
  simp only at h ⊢
  have grow : ∀ (fl : List (Str × List Str)) (st' : ThumbSt) (l : ThumbLine), l ∈ st'.lines →
      l ∈ (thumbFiles t s todo st' fl).st.lines := by
    intro fl
    induction fl with
    | nil => intro st' l hl; exact hl
    | cons y fl ih =>
      obtain ⟨c, ns⟩ := y
      intro st' l hl
      have hstep : l ∈ (thumbFile t s todo st' c ns).st.lines := by
        unfold thumbFile
        split
        · simp [ThumbSt.record, hl]
        · split
          · exact hl
          · split
            · exact hl
            · split
              · exact hl
              · exact hl
              · unfold makeThumb
                split
                · simp [ThumbSt.record, hl]
                · split
                  · exact hl
                  · simp [ThumbSt.record, hl]
                  · simp [ThumbSt.record, hl]
      rw [thumbFiles]
      rcases hq : thumbFile t s todo st' c ns with ⟨st1, e⟩
      rw [hq] at hstep
      cases e with
      | some e => exact hstep
      | none => exact ih st1 l hstep
  exact grow b _ _ (by simp [ThumbSt.record])

example :=
  C100_recorded_partial (t := exThumb true 0) (s := (exThumbStream (exThumb true 0)).2) (todo := fun _ => some exThumbFun)
    (st := (exThumbStream (exThumb true 0)).1.st) (files := exThumbFiles) (by decide)
    (k := "v2/content/b".toList) (x := ⟨"data/v2/00001.png".toList, [], [], false, "internal".toList⟩) (by decide)
    (cs := "d2".toList) (names := ["v2/content/b".toList]) (by decide) (by decide)

/-- an object whose content directory is called `data` -/
def exDataInv : Inv :=
  { exInv with
    writeable := true
    contentDirectory := "data".toList
    manifest := [("d2".toList, ["v2/data/b".toList])] }

def exDataObj : Obj := ⟨exDataInv, [], false, []⟩

/-- **C100 fails** for an object whose content directory is not called `content`: the thumbnail of a streamed file is
stored, not recorded, and a second one is made at the end of the update. -/
theorem C100_full_fails : ¬ C100_full := by
  intro hf
  have h := (hf ⟨⟨exWorld, fun p => .ok p, fun _ => some [2], none⟩, [], "NNNN-thumbnail".toList,
      ⟨"png".toList, true, ⟨"gzip".toList, "extension".toList, "data".toList⟩⟩, fun _ => 0⟩
    (fun b => some (8 :: b)) exDataObj _ (fun _ => some exThumbFun) exDataObj.inv.manifest "b".toList "d2".toList
    ["v2/data/b".toList] [2] rfl rfl rfl rfl (by decide) rfl).1
  exact absurd h (by decide)

/-! ## C101: the size of thumbnails -/

/-- **C101, full statement** (false): a thumbnail made while a file is added is not larger than configured. -/
def C101_full : Prop :=
  ∀ w h dx dy : Nat, 0 < w → 0 < h → 0 < dx → 0 < dy → (thumbSize w h dx dy).1 ≤ w ∧ (thumbSize w h dx dy).2 ≤ h

/-- **C101, exact**: the thumbnail is larger than configured iff the picture is wider, in proportion, than the size
configured, by at least one pixel of the result, but the proportions are equal as whole numbers. -/
theorem C101_fits_iff {w h dx dy : Nat} (hh : 0 < h) (hy : 0 < dy) :
    ((thumbSize w h dx dy).1 ≤ w ∧ (thumbSize w h dx dy).2 ≤ h) ↔
      ¬ ((w + 1) * dy ≤ dx * h ∧ dx / dy = w / h) := by
  unfold thumbSize
  split
  · rename_i hgt
    have h1 : dy * w / dx ≤ h := by
      have h2 : (w / h + 1) * dy ≤ dx := by
        have := Nat.div_mul_le_self dx dy
        have h3 : (w / h + 1) * dy ≤ dx / dy * dy := Nat.mul_le_mul_right _ hgt
        omega
      have h4 : w < (w / h + 1) * h := by
        have := Nat.lt_div_mul_add (a := w) hh
        rw [Nat.add_mul, Nat.one_mul]
        exact this
      refine Nat.div_le_of_le_mul ?_
      calc dy * w ≤ dy * ((w / h + 1) * h) := Nat.mul_le_mul_left _ (Nat.le_of_lt h4)
        _ = (w / h + 1) * dy * h := by ring
        _ ≤ dx * h := Nat.mul_le_mul_right _ h2
    simp only [Nat.le_refl, h1, and_self, true_iff]
    omega
  · rename_i hle
    simp only [Nat.le_refl, and_true]
    constructor
    · rintro h1 ⟨h2, _⟩
      have := (Nat.le_div_iff_mul_le hy).2 h2
      omega
    · intro h1
      by_contra h2
      refine h1 ⟨(Nat.le_div_iff_mul_le hy).1 (by omega), ?_⟩
      have h3 : w < dx * h / dy := by omega
      have h4 : w / h ≤ dx / dy := by
        have h5 : w * dy ≤ dx * h := Nat.le_of_lt (by
          have := (Nat.lt_iff_add_one_le).1 h3
          have := (Nat.le_div_iff_mul_le hy).1 this
          calc w * dy < (w + 1) * dy := Nat.mul_lt_mul_of_pos_right (Nat.lt_succ_self _) hy
            _ ≤ _ := this)
        have h6 : w / h * h ≤ w := Nat.div_mul_le_self _ _
        refine (Nat.le_div_iff_mul_le hy).2 ?_
        refine Nat.le_of_mul_le_mul_right ?_ hh
        calc w / h * dy * h = w / h * h * dy := by ring
          _ ≤ w * dy := Nat.mul_le_mul_right _ h6
          _ ≤ dx * h := h5
      omega

/-- **C101**: pictures that are, in proportion, not wider than the size configured get thumbnails that fit. -/
theorem C101_fits_partial {w h dx dy : Nat} (hh : 0 < h) (hy : 0 < dy) (hp : dx * h ≤ w * dy) :
    (thumbSize w h dx dy).1 ≤ w ∧ (thumbSize w h dx dy).2 ≤ h := by
  refine (C101_fits_iff hh hy).2 ?_
  rintro ⟨h1, _⟩
  rw [Nat.add_mul] at h1
  omega

/-- a portrait of 200×300 -/
example : thumbSize 256 256 200 300 = (170, 256) := by decide

/-- **C101 fails** for a picture of 300×200, configured 256×256: the thumbnail is 384×256. -/
theorem C101_full_fails : ¬ C101_full := by
  intro h
  have := h 256 256 300 200 (by decide) (by decide) (by decide) (by decide)
  exact absurd this (by decide)

end Gocfl
