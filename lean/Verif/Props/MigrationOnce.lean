import Verif.Props.Migration
import Verif.Props.Metadata

/-!
# C90, C91: which files are migrated, whether that can fail, and how often a file is migrated
-/

namespace Gocfl

/-! ## Which files are picked -/

/-- **C90**, the files picked: every content of the manifest that was identified, has a function and is not recorded as
migrated — nothing is asked about whether any version still has it. -/
theorem C90_collect_exact {digests : List Str} {pronom : Str → Option Str} {byPronom : Str → Option MigFun}
    {before : List Str} {d : Str} {f : MigFun} :
    (d, f) ∈ migCollect digests pronom byPronom before ↔
      d ∈ digests ∧ d ∉ before ∧ ∃ p, pronom d = some p ∧ byPronom p = some f := by
  unfold migCollect
  rw [List.mem_filterMap]
  constructor
  · rintro ⟨e, he, h⟩
    rw [Option.bind_eq_some_iff] at h
    obtain ⟨p, hp, h⟩ := h
    rw [Option.bind_eq_some_iff] at h
    obtain ⟨g, hg, h⟩ := h
    split at h
    · cases h
    · rename_i hb
      cases h
      exact ⟨he, hb, p, hp, hg⟩
  · rintro ⟨hd, hb, p, hp, hf⟩
    exact ⟨d, hd, by rw [hp, Option.bind_some, hf, Option.bind_some, if_neg hb]⟩

theorem migrateOne_step (m : MigWorld) (prev : Str) (migrated : Bool) (o : Obj) (cs : Str) (f : MigFun) :
    CallStep m.w (fun _ _ => True) o (migrateOne m prev migrated o cs f).out.obj := by
  unfold migrateOne
  split
  · exact CallStep.refl o
  · exact CallStep.refl o
  · rename_i p hp
    have hstep : CallStep m.w (fun _ _ => True) o (doMigrate m o f p).obj := by
      unfold doMigrate
      split
      · exact CallStep.refl o
      · exact objAddReader_step trivial
    rcases hd : doMigrate m o f p with ⟨o1, er⟩
    rw [hd] at hstep
    cases er with
    | none => exact hstep.trans (runCalls_step _ fun _ _ _ _ => trivial)
    | some e => cases e <;> exact hstep

/-- **C90, in full** (false): if every file that the version before has can be migrated, making the version for the
migrations does not fail. -/
def C90_full : Prop :=
  ∀ (m : MigWorld) (o : Obj) (n : Nat) (prev : Str) (ver : Version) (results before : List Str) (todo : List (Str × MigFun)),
    GapFree o.inv n → 0 < n → prev ≠ o.inv.head → mget o.inv.versions prev = some ver →
    (∀ x ∈ todo, mgetD ver.state x.1 ≠ [] → ∀ o' : Obj, HeadOnly o.inv o'.inv →
      (migrateOne m prev (decide (x.1 ∈ results)) o' x.1 x.2).out.err = none) →
    (migrateFiles m prev results before o todo).out.err = none

/-- **C90 fails** for every content that is picked and is not in the version before any more (its file was deleted or
replaced by other content): the update fails. -/
theorem C90_full_fails_absent {m : MigWorld} {prev : Str} {ver : Version} {results before : List Str} {cs src : Str}
    {rest : List Str} {f : MigFun} {data : Bytes} {todo : List (Str × MigFun)} (hread : m.readContent src = some data)
    (hst : mgetD ver.state cs = []) (hb : cs ∉ before) (hx : (cs, f) ∈ todo) :
    ∀ (o : Obj), prev ≠ o.inv.head → mget o.inv.versions prev = some ver → mget o.inv.manifest cs = some (src :: rest) →
    (migrateFiles m prev results before o todo).out.err ≠ none := by
  suffices hs : ∀ (o : Obj) (rest : List Str), prev ≠ o.inv.head → mget o.inv.versions prev = some ver →
      mget o.inv.manifest cs = some (src :: rest) → (migrateFiles m prev results before o todo).out.err ≠ none from
    fun o => hs o rest
  clear rest
  induction todo with
  | nil => cases hx
  | cons y todo ih =>
    intro o rest hp hv hm
    obtain ⟨c, g⟩ := y
    rw [migrateFiles]
    by_cases hcs : (cs, f) = (c, g)
    · cases hcs
      rw [if_neg hb]
      have : ∃ e, migPlan m o.inv prev (decide (cs ∈ results)) cs f = .error e := by
        unfold migPlan
        rw [hm, hv]
        simp only
        cases hs : mget ver.state cs with
        | none => exact ⟨_, rfl⟩
        | some l =>
          have : l = [] := by unfold mgetD at hst; rw [hs] at hst; exact hst
          subst this
          simp only [List.map_nil, List.not_mem_nil, if_false]
          unfold migSource
          rw [hread]
          exact ⟨_, rfl⟩
      obtain ⟨e, he⟩ := this
      unfold migrateOne
      rw [he]
      simp
    · have hx' : (cs, f) ∈ todo := by
        rcases List.mem_cons.1 hx with h | h
        · exact absurd h hcs
        · exact h
      split
      · exact ih hx' o rest hp hv hm
      · have hstep := migrateOne_step m prev (decide (c ∈ results)) o c g
        rcases hone : migrateOne m prev (decide (c ∈ results)) o c g with ⟨⟨o1, er⟩, ls⟩
        rw [hone] at hstep
        simp only at hstep
        cases er with
        | some e => simp
        | none =>
          simp only
          have hh := hstep.headOnly
          obtain ⟨ops, hops, _⟩ := hstep.inv
          obtain ⟨ext, hext⟩ := C12_manifest_only_grows hops hm
          exact ih hx' o1 (rest ++ ext) (by rw [hh.head]; exact hp) (by rw [hh.other prev hp]; exact hv) hext

/-- the object whose `a.tif` was deleted in the version before -/
def migDel : Obj :=
  { migObj with inv := { migInv with
      head := "v3".toList
      versions :=
        [("v1".toList, ⟨[], [], [], [], [("d1".toList, ["a.tif".toList])]⟩),
         ("v2".toList, ⟨[], [], [], [], [("d1".toList, [])]⟩),
         ("v3".toList, ⟨[], [], [], [], [("d1".toList, [])]⟩)] } }

/-- **C90 fails**: the only file was deleted, and the update panics. -/
theorem C90_full_fails : ¬ C90_full := by
  intro hf
  have h := hf migWorld migDel 3 "v2".toList ⟨[], [], [], [], [("d1".toList, [])]⟩ [] []
    [("d1".toList, migFun .replace "a.jpg".toList)] ⟨by decide, by decide⟩ (by decide) (by decide) (by decide) (by
      intro x hx hne
      rw [List.mem_singleton] at hx
      subst hx
      exact absurd rfl hne)
  exact C90_full_fails_absent (data := [16]) (ver := ⟨[], [], [], [], [("d1".toList, [])]⟩) (by decide) (by decide) (by decide) (List.mem_singleton.2 rfl) migDel (by decide)
    (by decide) (rfl : mget migDel.inv.manifest "d1".toList = some ("v1/content/a.tif".toList :: [])) h

/-! ## When it does not fail -/

theorem objIfExists_ok_unpadded {o : Obj} {n : Nat} (hg : GapFree o.inv n) (hpad : o.inv.paddingLength ≤ 0)
    (hw : o.inv.writeable = true) {p d : Str} (f : Inv → Res Inv) (hf : ∃ i, f o.inv = .ok i) :
    (objIfExists o p d f).err = none := by
  unfold objIfExists
  rw [if_neg (by simp [hw])]
  have : ∃ b, alreadyExists o.inv p d = .ok b := by
    by_cases hd : d = []
    · exact ⟨false, by unfold alreadyExists; rw [if_pos hd]⟩
    · obtain ⟨r, hr⟩ := lastDigest_unpadded_ok hg hpad p
      exact ⟨_, (alreadyExists_ok hd).2 ⟨r, hr, rfl⟩⟩
  obtain ⟨b, hb⟩ := this
  rw [hb]
  cases b with
  | false => rfl
  | true =>
    obtain ⟨i, hi⟩ := hf
    unfold withInv
    simp only [hi]

/-- deletions and renamings never fail in an unpadded object -/
theorem runCalls_ok_unpadded {w : World} {n : Nat} (hn : 0 < n) (cs : List Call)
    (hc : ∀ c ∈ cs, (∃ p d, c = .delete p d) ∨ ∃ a b d, c = .rename a b d) :
    ∀ (o : Obj), GapFree o.inv n → o.inv.paddingLength ≤ 0 → o.inv.writeable = true → (runCalls w o cs).err = none := by
  induction cs with
  | nil => intro o _ _ _; rfl
  | cons c cs ih =>
    intro o hg hpad hw
    have h1 : (runCall w o c).err = none := by
      rcases hc c (by simp) with ⟨p, d, rfl⟩ | ⟨a, b, d, rfl⟩
      · obtain ⟨i, hi, _⟩ := C14_delete_exact hg hn p
        exact objIfExists_ok_unpadded hg hpad hw _ ⟨i, hi⟩
      · obtain ⟨i, hi, _⟩ := C15_rename_exact hg hn a b
        exact objIfExists_ok_unpadded hg hpad hw _ ⟨i, hi⟩
    have hh := (runCall_step (w := w) (U := fun _ _ => True) (o := o) c (fun _ _ => trivial)).headOnly
    rw [runCalls, andThen_none h1]
    exact ih (fun c hc' => hc c (by simp [hc'])) _ (hh.gapFree hg) (by rw [hh.pad]; exact hpad) (by rw [hh.wr]; exact hw)

theorem addFile_ok_unpadded {n : Nat} (hn : 0 < n) {ns : List Str} {mp dig : Str} {cs : AMap Str Str} {inv : Inv}
    (hg : GapFree inv n) (hpad : inv.paddingLength ≤ 0) (hd : mget cs inv.digestAlg = some dig) :
    ∃ inv', addFile inv ns mp cs = .ok inv' := by
  unfold addFile
  rw [hd]
  simp only
  obtain ⟨f1, f2, _, _, f5⟩ := addFixity_fold inv mp cs
  suffices hs : ∀ i : Inv, GapFree i n → i.paddingLength ≤ 0 →
      ∃ j, ns.foldlM (fun i n => addName i mp (toLower dig) n) i = .ok j from
    hs _ (f5.gapFree hg) (by rw [f5.pad]; exact hpad)
  clear hg hpad hd f1 f2 f5
  induction ns with
  | nil => intro i _ _; exact ⟨i, rfl⟩
  | cons p ns ih =>
    intro i hg hpad
    obtain ⟨s, hs⟩ := hg.headState hn
    obtain ⟨r, hr⟩ := lastDigest_unpadded_ok hg hpad p
    have h1 : ∃ b, alreadyExists i p (toLower dig) = .ok b := by
      by_cases hd : toLower dig = []
      · exact ⟨false, by unfold alreadyExists; rw [if_pos hd]⟩
      · exact ⟨_, (alreadyExists_ok hd).2 ⟨r, hr, rfl⟩⟩
    have h2 : ∃ b, isUpdate i p (toLower dig) = .ok b := by
      by_cases hd : toLower dig = []
      · exact ⟨false, by unfold isUpdate; rw [if_pos hd]⟩
      · exact ⟨_, (isUpdate_ok hd).2 ⟨r, hr, rfl⟩⟩
    obtain ⟨b1, h1⟩ := h1
    obtain ⟨b2, h2⟩ := h2
    obtain ⟨j, hj, _, _, _, _, hh⟩ := addName_exists mp hs h1 h2
    obtain ⟨k, hk⟩ := ih j (hh.gapFree hg) (by rw [hh.pad]; exact hpad)
    exact ⟨k, by rw [List.foldlM_cons, hj, res_bind_ok]; exact hk⟩

/-- the file has a content path that can be read, is in the version before, and has names for its result -/
def CanPlan (m : MigWorld) (inv : Inv) (ver : Version) (results : List Str) (x : Str × MigFun) : Prop :=
  (∃ src rest data, mget inv.manifest x.1 = some (src :: rest) ∧ m.readContent src = some data) ∧
  ∃ p ps, mget ver.state x.1 = some (p :: ps) ∧
    ∀ q ∈ p :: ps, destName x.2 inv.head (decide (x.1 ∈ results)) q ≠ []

/-- **C90** for unpadded objects and contents that the version before has: the migrations never fail the update, whatever
the commands do. -/
theorem C90_runs_partial {m : MigWorld} {n : Nat} {prev : Str} {ver : Version} {results before : List Str} (hn : 0 < n)
    (hex : ∀ p, ∃ x, m.extractPath p = .ok x) (hsp : ∀ p a, ∃ x, m.w.statePath p a = .ok x)
    (hmp : ∀ p a, ∃ x, m.w.manifestPath p a = .ok x) (todo : List (Str × MigFun)) :
    ∀ (o : Obj), GapFree o.inv n → o.inv.paddingLength ≤ 0 → o.inv.writeable = true → prev ≠ o.inv.head →
    mget o.inv.versions prev = some ver → (∀ x ∈ todo, x.1 ∉ before → CanPlan m o.inv ver results x) →
    (migrateFiles m prev results before o todo).out.err = none := by
  have hmapM : ∀ (g : Str → Res Str), (∀ p, ∃ x, g p = .ok x) → ∀ l : List Str, ∃ xs, l.mapM g = .ok xs := by
    intro g hg l
    induction l with
    | nil => exact ⟨[], rfl⟩
    | cons a l ih =>
      obtain ⟨x, hx⟩ := hg a
      obtain ⟨xs, hxs⟩ := ih
      exact ⟨x :: xs, by rw [List.mapM_cons, hx, res_bind_ok, hxs]; rfl⟩
  induction todo with
  | nil => intro o _ _ _ _ _ _; rfl
  | cons x todo ih =>
    intro o hg hpad hw hp hv hall
    obtain ⟨cs, f⟩ := x
    rw [migrateFiles]
    split
    · exact ih o hg hpad hw hp hv (fun x hx => hall x (by simp [hx]))
    · rename_i hb
      obtain ⟨⟨src, rest, data, hm, hread⟩, q, qs, hst, hdest⟩ := hall (cs, f) (by simp) hb
      have hone : (migrateOne m prev (decide (cs ∈ results)) o cs f).out.err = none := by
        obtain ⟨ex, hexs⟩ := hmapM m.extractPath hex ((q :: qs).map (destName f o.inv.head (decide (cs ∈ results))))
        have hex0 : ex ≠ [] := by
          rintro rfl
          rw [List.map_cons, List.mapM_cons] at hexs
          obtain ⟨a, _, hexs⟩ := res_bind_eq_ok.1 hexs
          obtain ⟨b, _, hexs⟩ := res_bind_eq_ok.1 hexs
          cases hexs
        obtain ⟨e0, es, rfl⟩ := List.exists_cons_of_ne_nil hex0
        obtain ⟨mp, hmp0⟩ := hmp e0 "content".toList
        have hplan : ∃ p, migPlan m o.inv prev (decide (cs ∈ results)) cs f = .ok (some p) ∧ p.extract = e0 :: es := by
          unfold migPlan
          simp only at hm hst
          rw [hm, hv]
          simp only
          rw [hst]
          simp only
          rw [if_neg (by
            intro hmem
            obtain ⟨q', h1, h2⟩ := List.mem_map.1 hmem
            exact hdest q' h1 h2)]
          unfold migSource
          rw [hread, hexs, res_bind_ok]
          simp only
          rw [res_bind_ok]
          simp only
          rw [hmp0, res_bind_ok]
          exact ⟨_, rfl, rfl⟩
        obtain ⟨p, hplan, hpe⟩ := hplan
        have herr : ∀ x, (doMigrate m o f p).err ≠ some (.panic x) := by
          intro x
          unfold doMigrate
          split
          · simp [fail]
          · unfold objAddReader
            rw [hpe, if_neg (by simp), if_neg (by simp [hw])]
            obtain ⟨ts, hts⟩ := hmapM (fun y => m.w.statePath y "content".toList) (fun y => hsp y _) (e0 :: es)
            have hbn : buildNames m.w o.inv (e0 :: es) "content".toList = .ok (ts, buildManifestName o.inv mp) := by
              unfold buildNames
              rw [hts, res_bind_ok]
              simp only [List.headD_cons]
              rw [hmp0, res_bind_ok]
            rw [hbn]
            simp only
            unfold addReader
            split
            · simp
            · unfold withInv
              split
              · simp
              · rename_i cks hck e he
                unfold addFile at he
                split at he
                · cases he; simp
                · rename_i dig hdig
                  obtain ⟨i, hi⟩ := addFile_ok_unpadded (ns := ts) (mp := buildManifestName o.inv mp) hn hg hpad hdig
                  unfold addFile at hi
                  rw [hdig] at hi
                  simp only at hi he
                  rw [hi] at he
                  cases he
        unfold migrateOne
        rw [hplan]
        simp only
        have hstep : CallStep m.w (fun _ _ => True) o (doMigrate m o f p).obj := by
          unfold doMigrate
          split
          · exact CallStep.refl o
          · exact objAddReader_step trivial
        rcases hd : doMigrate m o f p with ⟨o1, er⟩
        rw [hd] at hstep herr
        simp only at hstep herr
        cases er with
        | some e =>
          cases e with
          | panic x => exact absurd rfl (herr x)
          | error x => rfl
        | none =>
          simp only
          have hh := hstep.headOnly
          refine runCalls_ok_unpadded hn _ ?_ o1 (hh.gapFree hg) (by rw [hh.pad]; exact hpad) (by rw [hh.wr]; exact hw)
          intro c hc
          unfold migAfter at hc
          split at hc
          · cases hc
          · obtain ⟨a, _, rfl⟩ := List.mem_map.1 hc
            exact Or.inl ⟨_, _, rfl⟩
          · obtain ⟨a, _, rfl⟩ := List.mem_map.1 hc
            exact Or.inr ⟨_, _, _, rfl⟩
      have hstep := migrateOne_step m prev (decide (cs ∈ results)) o cs f
      rcases hm1 : migrateOne m prev (decide (cs ∈ results)) o cs f with ⟨⟨o1, er⟩, ls⟩
      rw [hm1] at hone hstep
      simp only at hone hstep
      subst hone
      simp only
      have hh := hstep.headOnly
      obtain ⟨ops, hops, _⟩ := hstep.inv
      refine ih o1 (hh.gapFree hg) (by rw [hh.pad]; exact hpad) (by rw [hh.wr]; exact hw) (by rw [hh.head]; exact hp)
        (by rw [hh.other prev hp]; exact hv) ?_
      intro y hy hyb
      obtain ⟨⟨src', rest', data', h1, h2⟩, h3⟩ := hall y (by simp [hy]) hyb
      obtain ⟨ext, hext⟩ := C12_manifest_only_grows hops h1
      refine ⟨⟨src', rest' ++ ext, data', hext, h2⟩, ?_⟩
      rw [hh.head]
      exact h3

/-- both files of the example, whatever the command does -/
example (g : Bytes → Option Bytes) (s : Strategy) (hs : s ≠ .folder) :
    (migrateFiles migWorld "v1".toList [] [] migObj
      [("d1".toList, ⟨s, fun _ => "a.jpg".toList, g, []⟩), ("d2".toList, ⟨s, fun p => 'x' :: p, g, []⟩)]).out.err = none := by
  refine C90_runs_partial (n := 2) (ver := migVer) (by decide) (fun p => ⟨p, rfl⟩) (fun p a => ⟨p, rfl⟩) (fun p a => ⟨p, rfl⟩) _ migObj
    migInv_gapFree (by decide) rfl (by decide) (by decide) ?_
  intro x hx _
  simp only [List.mem_cons, List.not_mem_nil, or_false] at hx
  rcases hx with rfl | rfl
  · refine ⟨⟨"v1/content/a.tif".toList, [], [16], rfl, rfl⟩, "a.tif".toList, [], rfl, ?_⟩
    intro q _
    cases s with
    | folder => exact absurd rfl hs
    | add => show "a.jpg".toList ≠ []; decide
    | replace => show "a.jpg".toList ≠ []; decide
  · refine ⟨⟨"v1/content/b.jpg".toList, [], [16], rfl, rfl⟩, "b.jpg".toList, [], rfl, ?_⟩
    intro q _
    cases s with
    | folder => exact absurd rfl hs
    | add => exact List.cons_ne_nil _ _
    | replace => exact List.cons_ne_nil _ _

/-! ## C91: a file is migrated once -/

/-- the line is recorded under the digest `k` (of the result; of the original if there is no result) and says that the
content `s` was migrated -/
def RecordedAs (man : DMap) (l : MigLine) (k s : Str) : Prop :=
  UnderDigest man l.source s ∧
    (UnderDigest man l.path k ∨ (l.failed = true ∧ (∀ d, ¬ UnderDigest man l.path d) ∧ k = s))

theorem listed_iff {man : DMap} {p : Str} : listed man p = true ↔ ∃ d, UnderDigest man p d := by
  unfold listed UnderDigest
  rw [List.any_eq_true]
  constructor
  · rintro ⟨e, he, h⟩
    exact ⟨e.1, e.2, he, of_decide_eq_true h⟩
  · rintro ⟨d, ps, h1, h2⟩
    exact ⟨(d, ps), h1, decide_eq_true h2⟩

theorem migMetaLine_recorded {man : DMap} (hf : PathsFunctional man) (hne : ∀ p, ¬ UnderDigest man p []) {l : MigLine}
    {k s : Str} (h : RecordedAs man l k s) (acc : AMap Str (Str × Str)) :
    migMetaLine man acc l = .ok (mset acc k (s, l.id)) := by
  obtain ⟨h1, h2⟩ := h
  have e1 := pathDigest_eq hf h1
  unfold migMetaLine
  rw [e1, if_neg (by rintro rfl; exact hne _ h1)]
  rcases h2 with h2 | ⟨h2, h3, rfl⟩
  · rw [if_pos (listed_iff.2 ⟨k, h2⟩), pathDigest_eq hf h2]
  · rw [if_neg (by rw [listed_iff]; rintro ⟨d, hd⟩; exact h3 d hd), if_pos]
    rw [h2, Bool.true_and, listed_iff]
    exact ⟨_, h1⟩

theorem recorded_inj {man : DMap} (hf : PathsFunctional man) {l : MigLine} {k s k' s' : Str} (h : RecordedAs man l k s)
    (h' : RecordedAs man l k' s') : k = k' ∧ s = s' := by
  have hs := hf _ _ _ h.1 h'.1
  refine ⟨?_, hs⟩
  rcases h.2 with h1 | ⟨_, h2, rfl⟩ <;> rcases h'.2 with h1' | ⟨_, h2', rfl⟩
  · exact hf _ _ _ h1 h1'
  · exact absurd h1 (h2' _)
  · exact absurd h1' (h2 _)
  · exact hs

/-- what the records amount to: of the lines under one digest the last one counts -/
theorem migMeta_fold {man : DMap} (hf : PathsFunctional man) (hne : ∀ p, ¬ UnderDigest man p []) (lines : List MigLine)
    (hrec : ∀ l ∈ lines, ∃ k s, RecordedAs man l k s) :
    ∀ acc : AMap Str (Str × Str), (mkeys acc).Nodup → ∃ mt, lines.foldlM (migMetaLine man) acc = .ok mt ∧ (mkeys mt).Nodup ∧
      (∀ k v, mget mt k = some v → (∃ l ∈ lines, RecordedAs man l k v.1) ∨
        (mget acc k = some v ∧ ∀ l ∈ lines, ∀ s, ¬ RecordedAs man l k s)) ∧
      ∀ k, (mget acc k ≠ none ∨ ∃ l ∈ lines, ∃ s, RecordedAs man l k s) → mget mt k ≠ none := by
  induction lines with
  | nil =>
    intro acc hn
    exact ⟨acc, rfl, hn, fun k v h => Or.inr ⟨h, by simp⟩, fun k h => by simpa using h⟩
  | cons l lines ih =>
    intro acc hn
    obtain ⟨k0, s0, h0⟩ := hrec l (by simp)
    obtain ⟨mt, h1, h2, h3, h4⟩ := ih (fun l hl => hrec l (by simp [hl])) (mset acc k0 (s0, l.id)) (mkeys_mset_nodup hn _ _)
    refine ⟨mt, ?_, h2, ?_, ?_⟩
    · rw [List.foldlM_cons, migMetaLine_recorded hf hne h0, res_bind_ok]
      exact h1
    · intro k v hv
      rcases h3 k v hv with ⟨l', hl', hr⟩ | ⟨ha, hno⟩
      · exact Or.inl ⟨l', by simp [hl'], hr⟩
      · by_cases hk : k = k0
        · subst hk
          rw [mget_mset_self] at ha
          cases ha
          exact Or.inl ⟨l, by simp, h0⟩
        · rw [mget_mset_ne _ (Ne.symm hk)] at ha
          refine Or.inr ⟨ha, ?_⟩
          intro l' hl' s hr
          rcases List.mem_cons.1 hl' with rfl | hl'
          · exact hk (recorded_inj hf hr h0).1
          · exact hno l' hl' s hr
    · intro k hk
      apply h4
      by_cases hk0 : k = k0
      · subst hk0
        exact Or.inl (by rw [mget_mset_self]; simp)
      · rcases hk with hk | ⟨l', hl', s, hr⟩
        · exact Or.inl (by rw [mget_mset_ne _ (Ne.symm hk0)]; exact hk)
        · rcases List.mem_cons.1 hl' with rfl | hl'
          · exact absurd (recorded_inj hf hr h0).1 hk0
          · exact Or.inr ⟨l', hl', s, hr⟩

/-- **C91, in full** (false): after an update whose migrations succeeded, the records can be read and name every content
that was to be migrated, so that none of them is migrated again. -/
def C91_full : Prop :=
  ∀ (m : MigWorld) (o : Obj) (n : Nat) (prev : Str) (ver : Version) (results before : List Str) (todo : List (Str × MigFun)),
    MigStart m o n prev ver results todo → (∀ p, m.readContent p ≠ none) →
    (migrateFiles m prev results before o todo).out.err = none →
    ∃ mt, migMeta (migrateFiles m prev results before o todo).out.obj.inv.manifest
        (migrateFiles m prev results before o todo).lines = .ok mt ∧
      ∀ x ∈ todo, x.1 ∉ before → x.1 ∈ migSources mt

/-- **C91**: as long as lines with the same result have the same original, the records name exactly the originals of all
lines. -/
theorem C91_recorded_partial {man : DMap} (hf : PathsFunctional man) (hne : ∀ p, ¬ UnderDigest man p []) {lines : List MigLine}
    (hrec : ∀ l ∈ lines, ∃ k s, RecordedAs man l k s)
    (hinj : ∀ l ∈ lines, ∀ l' ∈ lines, ∀ k s s', RecordedAs man l k s → RecordedAs man l' k s' → s = s') :
    ∃ mt, migMeta man lines = .ok mt ∧ ∀ s, s ∈ migSources mt ↔ ∃ l ∈ lines, UnderDigest man l.source s := by
  obtain ⟨mt, h1, h2, h3, h4⟩ := migMeta_fold hf hne lines hrec [] (by simp [mkeys])
  refine ⟨mt, h1, ?_⟩
  intro s
  unfold migSources
  rw [List.mem_map]
  constructor
  · rintro ⟨⟨k, v⟩, he, rfl⟩
    rcases h3 k v (mget_of_mem h2 he) with ⟨l, hl, hr⟩ | ⟨h, _⟩
    · exact ⟨l, hl, hr.1⟩
    · simp [mget] at h
  · rintro ⟨l, hl, hs⟩
    obtain ⟨k, s', hr⟩ := hrec l hl
    have : s' = s := hf _ _ _ hr.1 hs
    subst this
    cases hm : mget mt k with
    | none => exact absurd hm (h4 k (Or.inr ⟨l, hl, s', hr⟩))
    | some v =>
      rcases h3 k v hm with ⟨l', hl', hr'⟩ | ⟨h, _⟩
      · exact ⟨(k, v), mem_of_mget hm, (hinj l hl l' hl' k s' v.1 hr hr').symm⟩
      · simp [mget] at h

/-- **C91 fails** whenever a later line with the same result has another original: the original of the first is recorded
no more, and picked again by the next update. -/
theorem C91_full_fails_forgotten {man : DMap} (hf : PathsFunctional man) (hne : ∀ p, ¬ UnderDigest man p []) {pre post : List MigLine}
    {l l2 : MigLine} {k s s2 : Str} (hrec : ∀ x ∈ pre ++ l :: post, ∃ k s, RecordedAs man x k s) (hl : RecordedAs man l k s)
    (h2 : l2 ∈ post) (hl2 : RecordedAs man l2 k s2) (honly : ∀ x ∈ pre ++ post, ¬ UnderDigest man x.source s) :
    ∃ mt, migMeta man (pre ++ l :: post) = .ok mt ∧ s ∉ migSources mt ∧
      ∀ (digests : List Str) (pronom : Str → Option Str) (byPronom : Str → Option MigFun) (p : Str) (f : MigFun),
        s ∈ digests → pronom s = some p → byPronom p = some f →
        (s, f) ∈ migCollect digests pronom byPronom (migSources mt) := by
  obtain ⟨ma, a1, a2, a3, a4⟩ := migMeta_fold hf hne pre (fun x hx => hrec x (by simp [hx])) [] (by simp [mkeys])
  obtain ⟨mt, b1, b2, b3, b4⟩ := migMeta_fold hf hne post (fun x hx => hrec x (by simp [hx])) (mset ma k (s, l.id))
    (mkeys_mset_nodup a2 _ _)
  have hs : s ∉ migSources mt := by
    unfold migSources
    rw [List.mem_map]
    rintro ⟨⟨k', v⟩, he, hv⟩
    simp only at hv
    rcases b3 k' v (mget_of_mem b2 he) with ⟨x, hx, hr⟩ | ⟨ha, hno⟩
    · exact honly x (by simp [hx]) (by rw [← hv]; exact hr.1)
    · by_cases hk : k' = k
      · subst hk
        exact hno l2 h2 s2 hl2
      · rw [mget_mset_ne _ (Ne.symm hk)] at ha
        rcases a3 k' v ha with ⟨x, hx, hr⟩ | ⟨h, _⟩
        · exact honly x (by simp [hx]) (by rw [← hv]; exact hr.1)
        · simp [mget] at h
  refine ⟨mt, ?_, hs, ?_⟩
  · unfold migMeta
    rw [List.foldlM_append, a1, res_bind_ok, List.foldlM_cons, migMetaLine_recorded hf hne hl, res_bind_ok]
    exact b1
  · intro digests pronom byPronom p f h1 h2 h3
    exact C90_collect_exact.2 ⟨h1, hs, p, h2, h3⟩

/-- every content that is migrated has a line -/
theorem migrateFiles_lines {m : MigWorld} {prev : Str} {results before : List Str} (hread : ∀ p, m.readContent p ≠ none)
    (todo : List (Str × MigFun)) :
    ∀ (o : Obj), (migrateFiles m prev results before o todo).out.err = none → ∀ x ∈ todo, x.1 ∉ before →
    ∃ l ∈ (migrateFiles m prev results before o todo).lines,
      UnderDigest (migrateFiles m prev results before o todo).out.obj.inv.manifest l.source x.1 := by
  have hstepF : ∀ (todo : List (Str × MigFun)) (o : Obj),
      CallStep m.w (fun _ _ => True) o (migrateFiles m prev results before o todo).out.obj := by
    intro todo
    induction todo with
    | nil => intro o; exact CallStep.refl o
    | cons x todo ih =>
      intro o
      obtain ⟨c, g⟩ := x
      rw [migrateFiles]
      split
      · exact ih o
      · have hstep := migrateOne_step m prev (decide (c ∈ results)) o c g
        rcases hone : migrateOne m prev (decide (c ∈ results)) o c g with ⟨⟨o1, er⟩, ls⟩
        rw [hone] at hstep
        cases er with
        | some e => exact hstep
        | none => exact hstep.trans (ih o1)
  have hgrow : ∀ {o o' : Obj} {c src : Str}, CallStep m.w (fun _ _ => True) o o' → (∃ rest, mget o.inv.manifest c = some (src :: rest)) →
      ∃ rest, mget o'.inv.manifest c = some (src :: rest) := by
    rintro o o' c src hs ⟨rest, hr⟩
    obtain ⟨ops, hops, _⟩ := hs.inv
    obtain ⟨ext, hext⟩ := C12_manifest_only_grows hops hr
    exact ⟨rest ++ ext, hext⟩
  have hline : ∀ (o : Obj) (c : Str) (g : MigFun), (migrateOne m prev (decide (c ∈ results)) o c g).out.err = none →
      ∃ l ∈ (migrateOne m prev (decide (c ∈ results)) o c g).lines, ∃ rest, mget o.inv.manifest c = some (l.source :: rest) := by
    intro o c g herr
    unfold migrateOne at herr ⊢
    split at herr
    · cases herr
    · rename_i hp
      exfalso
      unfold migPlan at hp
      split at hp
      · cases hp
      · split at hp
        · cases hp
        · split at hp
          · cases hp
          · split at hp
            · cases hp
            · split at hp
              · cases hp
              · rename_i src _ _
                unfold migSource at hp
                cases hc : m.readContent src with
                | none => exact hread _ hc
                | some b =>
                  rw [hc] at hp
                  simp only [res_bind_ok] at hp
                  obtain ⟨ex, _, hp⟩ := res_bind_eq_ok.1 hp
                  split at hp
                  · cases hp
                  · obtain ⟨mp, _, hp⟩ := res_bind_eq_ok.1 hp
                    cases hp
    · rename_i p hp
      have hsrc : ∃ rest, mget o.inv.manifest c = some (p.source :: rest) := by
        cases hv : mget o.inv.versions prev with
        | none => unfold migPlan at hp; rw [hv] at hp; split at hp <;> cases hp
        | some ver => exact (migPlan_ok hv hp).2.2.2.2
      rcases hd : doMigrate m o g p with ⟨o1, er⟩
      rw [hd] at herr
      cases er with
      | none => exact ⟨_, List.mem_singleton.2 rfl, hsrc⟩
      | some e =>
        cases e with
        | panic x => cases herr
        | error x => exact ⟨_, List.mem_singleton.2 rfl, hsrc⟩
  induction todo with
  | nil => intro o _ x hx; cases hx
  | cons y todo ih =>
    intro o herr x hx hb
    obtain ⟨c, g⟩ := y
    rw [migrateFiles] at herr ⊢
    split
    · rename_i hc
      rw [if_pos hc] at herr
      rcases List.mem_cons.1 hx with rfl | hx
      · exact absurd hc hb
      · exact ih o herr x hx hb
    · rename_i hc
      rw [if_neg hc] at herr
      have hl := hline o c g
      have hs1 := migrateOne_step m prev (decide (c ∈ results)) o c g
      rcases hone : migrateOne m prev (decide (c ∈ results)) o c g with ⟨⟨o1, er⟩, ls⟩
      rw [hone] at herr hl hs1
      cases er with
      | some e => cases herr
      | none =>
        simp only at herr hl hs1 ⊢
        rcases List.mem_cons.1 hx with rfl | hx
        · obtain ⟨l, hl1, hl2⟩ := hl trivial
          obtain ⟨rest, hr⟩ := hgrow (hs1.trans (hstepF todo o1)) hl2
          exact ⟨l, List.mem_append_left _ hl1, _, mem_of_mget hr, by simp⟩
        · obtain ⟨l, hl1, hl2⟩ := ih o1 herr x hx hb
          exact ⟨l, List.mem_append_right _ hl1, hl2⟩

theorem callStep_grows {w : World} {U : Str → Str → Prop} {o o' : Obj} {d : Str} {l : List Str} (hs : CallStep w U o o')
    (h : mget o.inv.manifest d = some l) : ∃ ext, mget o'.inv.manifest d = some (l ++ ext) := by
  obtain ⟨ops, hops, _⟩ := hs.inv
  exact C12_manifest_only_grows hops h

theorem addFile_under {inv inv' : Inv} {ns : List Str} {mp : Str} {cs : AMap Str Str} (h : addFile inv ns mp cs = .ok inv')
    (hns : ns ≠ []) (hmp : mp ≠ []) : ∃ d l, mget inv'.manifest d = some l ∧ mp ∈ l := by
  obtain ⟨dig, _, hm⟩ := addFile_manifest h
  refine ⟨toLower dig, ?_⟩
  rw [hm]
  obtain ⟨ns', n, rfl⟩ : ∃ ns' n, ns = ns' ++ [n] := ⟨ns.dropLast, ns.getLast hns, (List.dropLast_append_getLast hns).symm⟩
  rw [List.foldl_append]
  simp only [List.foldl_cons, List.foldl_nil]
  unfold manAdd
  rw [if_pos hmp, mget_mset_self]
  exact ⟨_, rfl, by simp⟩

/-- a successful migration lists the content path that is recorded -/
theorem doMigrate_under {m : MigWorld} {o : Obj} {f : MigFun} {prev cs : Str} {mg : Bool} {p : MigPlan}
    (hp : migPlan m o.inv prev mg cs f = .ok (some p)) (h : (doMigrate m o f p).err = none) :
    ∃ d l, mget (doMigrate m o f p).obj.inv.manifest d = some l ∧ p.path ∈ l := by
  have hpath : ∃ e0 es mp, p.extract = e0 :: es ∧ m.w.manifestPath e0 "content".toList = .ok mp ∧
      p.path = buildManifestName o.inv mp := by
    unfold migPlan at hp
    split at hp
    · cases hp
    · split at hp
      · cases hp
      · split at hp
        · cases hp
        · split at hp
          · cases hp
          · split at hp
            · cases hp
            · obtain ⟨c, _, hp⟩ := res_bind_eq_ok.1 hp
              split at hp
              · cases hp
              · obtain ⟨ex, _, hp⟩ := res_bind_eq_ok.1 hp
                split at hp
                · cases hp
                · obtain ⟨mp, hmp, hp⟩ := res_bind_eq_ok.1 hp
                  cases hp
                  exact ⟨_, _, mp, rfl, hmp, rfl⟩
  obtain ⟨e0, es, mp, h1, h2, h3⟩ := hpath
  unfold doMigrate at h ⊢
  split
  · rename_i hr
    rw [hr] at h
    cases h
  · rename_i data hr
    rw [hr] at h
    simp only at h
    unfold objAddReader at h ⊢
    rw [h1] at h ⊢
    rw [if_neg (by simp)] at h ⊢
    split at h
    · cases h
    · rename_i hw
      rw [if_neg hw]
      split at h
      · cases h
      · rename_i ts mp' hb
        unfold buildNames at hb
        obtain ⟨ts', hts, hb⟩ := res_bind_eq_ok.1 hb
        simp only [List.headD_cons] at hb
        rw [h2, res_bind_ok] at hb
        cases hb
        have hts0 : ts ≠ [] := by
          rintro rfl
          rw [List.mapM_cons] at hts
          obtain ⟨a, _, hts⟩ := res_bind_eq_ok.1 hts
          obtain ⟨b, _, hts⟩ := res_bind_eq_ok.1 hts
          cases hts
        unfold addReader at h ⊢
        split
        · rename_i hc
          rw [hc] at h
          cases h
        · rename_i cks hc
          rw [hc] at h
          unfold withInv at h ⊢
          simp only at h ⊢
          split
          · rename_i i hi
            rw [h3]
            exact addFile_under hi hts0 (C13_content_path_ne_nil _ _)
          · rename_i e he
            rw [he] at h
            cases h

/-- every line can be read back -/
theorem migrateFiles_recorded (m : MigWorld) (prev : Str) (results before : List Str) (todo : List (Str × MigFun)) :
    ∀ (o : Obj), ∀ l ∈ (migrateFiles m prev results before o todo).lines, ∃ k s,
      RecordedAs (migrateFiles m prev results before o todo).out.obj.inv.manifest l k s := by
  have hfin : ∀ {man : DMap} {l : MigLine} {c : Str} {rest : List Str}, mget man c = some (l.source :: rest) →
      (l.failed = true ∨ ∃ d ps, mget man d = some ps ∧ l.path ∈ ps) → ∃ k s, RecordedAs man l k s := by
    intro man l c rest h1 h2
    have hs : UnderDigest man l.source c := ⟨_, mem_of_mget h1, by simp⟩
    by_cases hu : ∃ d, UnderDigest man l.path d
    · obtain ⟨d, hd⟩ := hu
      exact ⟨d, c, hs, Or.inl hd⟩
    · rcases h2 with h2 | ⟨d, ps, h3, h4⟩
      · exact ⟨c, c, hs, Or.inr ⟨h2, fun d hd => hu ⟨d, hd⟩, rfl⟩⟩
      · exact absurd ⟨d, ps, mem_of_mget h3, h4⟩ hu
  suffices hs : ∀ o : Obj, ∀ l ∈ (migrateFiles m prev results before o todo).lines,
      (∃ c rest, mget (migrateFiles m prev results before o todo).out.obj.inv.manifest c = some (l.source :: rest)) ∧
      (l.failed = true ∨ ∃ d ps, mget (migrateFiles m prev results before o todo).out.obj.inv.manifest d = some ps ∧ l.path ∈ ps) by
    intro o l hl
    obtain ⟨⟨c, rest, h1⟩, h2⟩ := hs o l hl
    exact hfin h1 h2
  have hstepF : ∀ (todo : List (Str × MigFun)) (o : Obj),
      CallStep m.w (fun _ _ => True) o (migrateFiles m prev results before o todo).out.obj := by
    intro todo
    induction todo with
    | nil => intro o; exact CallStep.refl o
    | cons x todo ih =>
      intro o
      obtain ⟨c, g⟩ := x
      rw [migrateFiles]
      split
      · exact ih o
      · have hstep := migrateOne_step m prev (decide (c ∈ results)) o c g
        rcases hone : migrateOne m prev (decide (c ∈ results)) o c g with ⟨⟨o1, er⟩, ls⟩
        rw [hone] at hstep
        cases er with
        | some e => exact hstep
        | none => exact hstep.trans (ih o1)
  have hgrow : ∀ {o o' : Obj} {l : MigLine}, CallStep m.w (fun _ _ => True) o o' →
      (∃ c rest, mget o.inv.manifest c = some (l.source :: rest)) ∧
        (l.failed = true ∨ ∃ d ps, mget o.inv.manifest d = some ps ∧ l.path ∈ ps) →
      (∃ c rest, mget o'.inv.manifest c = some (l.source :: rest)) ∧
        (l.failed = true ∨ ∃ d ps, mget o'.inv.manifest d = some ps ∧ l.path ∈ ps) := by
    rintro o o' l hst ⟨⟨c, rest, h1⟩, h2⟩
    obtain ⟨ext, hext⟩ := callStep_grows hst h1
    refine ⟨⟨c, rest ++ ext, hext⟩, ?_⟩
    rcases h2 with h2 | ⟨d, ps, h3, h4⟩
    · exact Or.inl h2
    · obtain ⟨ext, hext⟩ := callStep_grows hst h3
      exact Or.inr ⟨d, ps ++ ext, hext, by simp [h4]⟩
  have hone : ∀ (o : Obj) (c : Str) (g : MigFun) (mg : Bool), ∀ l ∈ (migrateOne m prev mg o c g).lines,
      (∃ d rest, mget (migrateOne m prev mg o c g).out.obj.inv.manifest d = some (l.source :: rest)) ∧
      (l.failed = true ∨ ∃ d ps, mget (migrateOne m prev mg o c g).out.obj.inv.manifest d = some ps ∧ l.path ∈ ps) := by
    intro o c g mg l hl
    unfold migrateOne at hl ⊢
    split at hl
    · cases hl
    · cases hl
    · rename_i p hp
      have hsrc : ∃ c rest, mget o.inv.manifest c = some (p.source :: rest) := by
        cases hv : mget o.inv.versions prev with
        | none => unfold migPlan at hp; rw [hv] at hp; split at hp <;> cases hp
        | some ver => exact ⟨c, (migPlan_ok hv hp).2.2.2.2⟩
      have hstep : CallStep m.w (fun _ _ => True) o (doMigrate m o g p).obj := by
        unfold doMigrate
        split
        · exact CallStep.refl o
        · exact objAddReader_step trivial
      have hun := doMigrate_under hp
      rcases hd : doMigrate m o g p with ⟨o1, er⟩
      rw [hd] at hl hstep hun
      cases er with
      | none =>
        rw [List.mem_singleton] at hl
        subst hl
        simp only at hun hstep ⊢
        obtain ⟨d, ps, h1, h2⟩ := hun trivial
        obtain ⟨c', rest, hc⟩ := hsrc
        obtain ⟨ext, hext⟩ := callStep_grows hstep hc
        exact hgrow (l := ⟨p.path, p.source, false, g.id⟩) (runCalls_step (w := m.w) (U := fun _ _ => True) _ fun _ _ _ _ => trivial)
          ⟨⟨c', rest ++ ext, hext⟩, Or.inr ⟨d, ps, h1, h2⟩⟩
      | some e =>
        cases e with
        | panic x => cases hl
        | error x =>
          rw [List.mem_singleton] at hl
          subst hl
          simp only at hstep ⊢
          obtain ⟨c', rest, hc⟩ := hsrc
          obtain ⟨ext, hext⟩ := callStep_grows hstep hc
          exact ⟨⟨c', rest ++ ext, hext⟩, Or.inl trivial⟩
  induction todo with
  | nil => intro o l hl; cases hl
  | cons y todo ih =>
    intro o l hl
    obtain ⟨c, g⟩ := y
    rw [migrateFiles] at hl ⊢
    split
    · rename_i hc
      rw [if_pos hc] at hl
      exact ih o l hl
    · rename_i hc
      rw [if_neg hc] at hl
      have h1 := hone o c g (decide (c ∈ results))
      rcases hr : migrateOne m prev (decide (c ∈ results)) o c g with ⟨⟨o1, er⟩, ls⟩
      rw [hr] at hl h1
      cases er with
      | some e => exact h1 l hl
      | none =>
        simp only at hl h1 ⊢
        rcases List.mem_append.1 hl with hl | hl
        · exact hgrow (hstepF todo o1) (h1 l hl)
        · exact ih o1 l hl

/-- **C91** for an update, with the records `old` of earlier ones: if lines with the same result have the same original, no
content of `todo` is ever picked again. -/
theorem C91_once_partial {m : MigWorld} {prev : Str} {results before : List Str} {todo : List (Str × MigFun)} {o : Obj}
    {old : List MigLine} (hread : ∀ p, m.readContent p ≠ none) (herr : (migrateFiles m prev results before o todo).out.err = none)
    (hf : PathsFunctional (migrateFiles m prev results before o todo).out.obj.inv.manifest)
    (hne : ∀ p, ¬ UnderDigest (migrateFiles m prev results before o todo).out.obj.inv.manifest p [])
    (hrec : ∀ l ∈ old, ∃ k s, RecordedAs (migrateFiles m prev results before o todo).out.obj.inv.manifest l k s)
    (hinj : ∀ l ∈ old ++ (migrateFiles m prev results before o todo).lines,
      ∀ l' ∈ old ++ (migrateFiles m prev results before o todo).lines, ∀ k s s',
      RecordedAs (migrateFiles m prev results before o todo).out.obj.inv.manifest l k s →
      RecordedAs (migrateFiles m prev results before o todo).out.obj.inv.manifest l' k s' → s = s') :
    ∃ mt, migMeta (migrateFiles m prev results before o todo).out.obj.inv.manifest
        (old ++ (migrateFiles m prev results before o todo).lines) = .ok mt ∧
      ∀ x ∈ todo, x.1 ∉ before → x.1 ∈ migSources mt ∧
        ∀ digests pronom byPronom f, (x.1, f) ∉ migCollect digests pronom byPronom (migSources mt) := by
  obtain ⟨mt, h1, h2⟩ := C91_recorded_partial hf hne (fun l hl => by
    rcases List.mem_append.1 hl with hl | hl
    · exact hrec l hl
    · exact migrateFiles_recorded m prev results before todo o l hl) hinj
  refine ⟨mt, h1, ?_⟩
  intro x hx hb
  obtain ⟨l, hl, hu⟩ := migrateFiles_lines hread todo o herr x hx hb
  have hin : x.1 ∈ migSources mt := (h2 x.1).2 ⟨l, List.mem_append_right _ hl, hu⟩
  exact ⟨hin, fun digests pronom byPronom f hc => (C90_collect_exact.1 hc).2.1 hin⟩

/-- two TIFF files -/
def tifInv : Inv :=
  { migInv with
    manifest := [("d1".toList, ["v1/content/a.tif".toList]), ("d2".toList, ["v1/content/b.tif".toList])]
    versions :=
      [("v1".toList, ⟨[], [], [], [], [("d1".toList, ["a.tif".toList]), ("d2".toList, ["b.tif".toList])]⟩),
       ("v2".toList, ⟨[], [], [], [], [("d1".toList, ["a.tif".toList]), ("d2".toList, ["b.tif".toList])]⟩)] }

def tifObj : Obj := { migObj with inv := tifInv }

def tifVer : Version := ⟨[], [], [], [], [("d1".toList, ["a.tif".toList]), ("d2".toList, ["b.tif".toList])]⟩

def tifFun (s : Strategy) (name : Str) (res : Bytes) : MigFun := ⟨s, fun _ => name, fun _ => some res, "f".toList⟩

def tifTodo (r1 r2 : Bytes) : List (Str × MigFun) :=
  [("d1".toList, tifFun .replace "a.jpg".toList r1), ("d2".toList, tifFun .replace "b.jpg".toList r2)]

theorem migStart_of {o : Obj} {ver : Version} {s : DMap} {results : List Str} {todo : List (Str × MigFun)} {n : Nat} {prev : Str}
    (hg : GapFree o.inv n) (hn : 0 < n) (hs : headState o.inv = .ok s)
    (hone : ∀ e ∈ o.inv.versions, (e.2.state.flatMap (·.2)).Nodup) (hp : prev ≠ o.inv.head)
    (hv : mget o.inv.versions prev = some ver) (hk : (todo.map (·.1)).Nodup) (hd : ∀ x ∈ todo, x.1 ≠ [])
    (hf : ∀ x ∈ todo, (mgetD ver.state x.1).Nodup ∧ ∀ p ∈ mgetD ver.state x.1, ∃ e ∈ s, e.1 = x.1 ∧ p ∈ e.2)
    (hnm : ∀ e ∈ s, ([] : Str) ∉ e.2) : MigStart migWorld o n prev ver results todo := by
  refine ⟨hg, hn, fun v w hv => hone (v, w) hv, exWorld_hex, hp, hv, hk, hd, ?_, ?_, ?_⟩
  · intro x hx
    exact ⟨(hf x hx).1, fun p hp => (hasFile_head_decide hg.nodup hs p _).2 ((hf x hx).2 p hp)⟩
  · rintro p d h rfl
    obtain ⟨e, he, _, h2⟩ := (hasFile_head_decide hg.nodup hs _ d).1 h
    exact hnm e he h2
  · intro x _ t _ y hy
    cases hy
    rfl

theorem tif_start (r1 r2 : Bytes) : MigStart migWorld tifObj 2 "v1".toList tifVer [] (tifTodo r1 r2) :=
  migStart_of (s := tifVer.state) ⟨by decide, by decide⟩ (by decide) (by decide) (by decide) (by decide) (by decide)
    (by simp [tifTodo]) (by simp [tifTodo]) (by
      intro x hx
      simp only [tifTodo, List.mem_cons, List.not_mem_nil, or_false] at hx
      rcases hx with rfl | rfl <;> (simp only; decide)) (by decide)

def tifRun (r1 r2 : Bytes) : MigOut := migrateFiles migWorld "v1".toList [] [] tifObj (tifTodo r1 r2)

/-- **C91 fails** if both files have the same result: the first is not recorded. -/
theorem C91_full_fails : ¬ C91_full := by
  intro hf
  have hok : (tifRun [1] [2]).out.err = none := by decide
  obtain ⟨mt, h1, h2⟩ := hf migWorld tifObj 2 "v1".toList tifVer [] [] _ (tif_start [1] [2]) (fun p h => by cases h) hok
  have hmt : migMeta (tifRun [1] [2]).out.obj.inv.manifest (tifRun [1] [2]).lines =
      .ok [("a0".toList, ("d2".toList, "f".toList))] := by decide
  have h1' : migMeta (tifRun [1] [2]).out.obj.inv.manifest (tifRun [1] [2]).lines = .ok mt := h1
  rw [hmt] at h1'
  cases h1'
  have := h2 ("d1".toList, tifFun .replace "a.jpg".toList [1]) (by simp [tifTodo]) (by simp)
  exact absurd this (by decide)

/-- the next update of the same object: `a.tif` is picked again and is gone, so the update panics (C90) -/
example (f : MigFun) :
    ((tifRun [1] [2]).out.obj.inv.versions.map (fun e => (e.1, mgetD e.2.state "d1".toList))) =
      [("v1".toList, ["a.tif".toList]), ("v2".toList, [])] ∧
    migCollect (mkeys (tifRun [1] [2]).out.obj.inv.manifest) (fun d => if d = "d1".toList then some [] else none) (fun _ => some f)
      ["d2".toList] = [("d1".toList, f)] :=
  ⟨by decide, by
    have h : mkeys (tifRun [1] [2]).out.obj.inv.manifest = ["d1".toList, "d2".toList, "a0".toList] := by decide
    rw [h]
    rfl⟩

theorem underDigest_decide {man : DMap} {p d : Str} : UnderDigest man p d ↔ ∃ e ∈ man, e.1 = d ∧ p ∈ e.2 := by
  constructor
  · rintro ⟨ps, h1, h2⟩
    exact ⟨_, h1, rfl, h2⟩
  · rintro ⟨⟨e, ps⟩, h1, rfl, h2⟩
    exact ⟨ps, h1, h2⟩

/-- different results: neither file is picked again -/
example : ∃ mt, migMeta (tifRun [1] [2, 3]).out.obj.inv.manifest ([] ++ (tifRun [1] [2, 3]).lines) = .ok mt ∧
    ∀ x ∈ tifTodo [1] [2, 3], x.1 ∉ ([] : List Str) → x.1 ∈ migSources mt ∧
      ∀ digests pronom byPronom f, (x.1, f) ∉ migCollect digests pronom byPronom (migSources mt) := by
  have hman : (tifRun [1] [2, 3]).out.obj.inv.manifest =
      [("d1".toList, ["v1/content/a.tif".toList]), ("d2".toList, ["v1/content/b.tif".toList]),
       ("a0".toList, ["v2/content/a.jpg".toList]), ("a00".toList, ["v2/content/b.jpg".toList])] := by decide
  have hlines : (tifRun [1] [2, 3]).lines =
      [⟨"v2/content/a.jpg".toList, "v1/content/a.tif".toList, false, "f".toList⟩,
       ⟨"v2/content/b.jpg".toList, "v1/content/b.tif".toList, false, "f".toList⟩] := by decide
  have hU : ∀ {p d : Str}, UnderDigest (tifRun [1] [2, 3]).out.obj.inv.manifest p d →
      (p, d) ∈ [("v1/content/a.tif".toList, "d1".toList), ("v1/content/b.tif".toList, "d2".toList),
        ("v2/content/a.jpg".toList, "a0".toList), ("v2/content/b.jpg".toList, "a00".toList)] := by
    intro p d h
    rw [hman, underDigest_decide] at h
    obtain ⟨e, he, rfl, hp⟩ := h
    simp only [List.mem_cons, List.not_mem_nil, or_false] at he
    rcases he with rfl | rfl | rfl | rfl <;> (rw [List.mem_singleton] at hp; subst hp; simp only; decide)
  have hF : PathsFunctional (tifRun [1] [2, 3]).out.obj.inv.manifest := by
    intro p d d' h h'
    have a := mget_of_mem (by decide) (hU h)
    rw [mget_of_mem (by decide) (hU h')] at a
    exact (Option.some.inj a).symm
  refine C91_once_partial (m := migWorld) (prev := "v1".toList) (results := []) (before := []) (todo := tifTodo [1] [2, 3])
    (o := tifObj) (old := []) (fun p h => by cases h) (by decide) hF ?_ (by simp) ?_
  · intro p h
    have := List.mem_map_of_mem (f := Prod.snd) (hU h)
    simp only at this
    exact absurd this (by decide)
  · intro l hl l' hl' k s s' hr hr'
    have hl : l ∈ (tifRun [1] [2, 3]).lines := hl
    have hl' : l' ∈ (tifRun [1] [2, 3]).lines := hl'
    have hr : RecordedAs (tifRun [1] [2, 3]).out.obj.inv.manifest l k s := hr
    have hr' : RecordedAs (tifRun [1] [2, 3]).out.obj.inv.manifest l' k s' := hr'
    rw [hlines] at hl hl'
    have h1 : RecordedAs (tifRun [1] [2, 3]).out.obj.inv.manifest
        ⟨"v2/content/a.jpg".toList, "v1/content/a.tif".toList, false, "f".toList⟩ "a0".toList "d1".toList := by
      unfold RecordedAs
      rw [hman, underDigest_decide, underDigest_decide]
      exact ⟨by decide, Or.inl (by decide)⟩
    have h2 : RecordedAs (tifRun [1] [2, 3]).out.obj.inv.manifest
        ⟨"v2/content/b.jpg".toList, "v1/content/b.tif".toList, false, "f".toList⟩ "a00".toList "d2".toList := by
      unfold RecordedAs
      rw [hman, underDigest_decide, underDigest_decide]
      exact ⟨by decide, Or.inl (by decide)⟩
    simp only [List.mem_cons, List.not_mem_nil, or_false] at hl hl'
    rcases hl with rfl | rfl <;> rcases hl' with rfl | rfl
    · exact hF _ _ _ hr.1 hr'.1
    · exact absurd ((recorded_inj hF hr h1).1.symm.trans (recorded_inj hF hr' h2).1) (by decide)
    · exact absurd ((recorded_inj hF hr h2).1.symm.trans (recorded_inj hF hr' h1).1) (by decide)
    · exact hF _ _ _ hr.1 hr'.1

end Gocfl
