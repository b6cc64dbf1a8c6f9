import Verif.Model.Migration
import Verif.Props.Stored
import Verif.Props.ContentMatch
import Verif.Props.State

/-!
# C89–C91: automatic migration of files
-/

namespace Gocfl

/-! ## Specification -/

/-- the names under which the results of a migration appear -/
def migTargets (f : MigFun) (head : Str) (migrated : Bool) (files : List Str) : List Str :=
  files.map (destName f head migrated)

/-- the names a migration of `files` brings into the version -/
def migNew (f : MigFun) (head : Str) (migrated : Bool) (files : List Str) : List Str :=
  (migTargets f head migrated files).filter (fun t => decide (t ∉ files)) ++
    (if f.strategy = .folder then
      (files.filter (fun p => decide (p ∉ migTargets f head migrated files))).map (folderDest migrated)
     else [])

/-- The files in `files` with content `cs` are as they were (`R`: the files of the version). -/
def NotMigrated (cs : Str) (files : List Str) (R : Str → Str → Prop) : Prop := ∀ p ∈ files, ∀ e, R p e ↔ e = cs

/-- The files in `files` with content `cs` have been migrated, with a result of digest `dig`: the result is there under
each of its names, the original is what the strategy says. -/
def Migrated (f : MigFun) (head : Str) (migrated : Bool) (cs : Str) (files : List Str) (dig : Str)
    (R : Str → Str → Prop) : Prop :=
  (∀ t ∈ migTargets f head migrated files, ∀ e, R t e ↔ e = dig) ∧
  ∀ p ∈ files, p ∉ migTargets f head migrated files →
    match f.strategy with
    | .add => ∀ e, R p e ↔ e = cs
    | .replace => ∀ e, ¬ R p e
    | .folder => (∀ e, ¬ R p e) ∧ ∀ e, R (folderDest migrated p) e ↔ e = cs

/-- where the content handed to the command comes from: the first content path recorded, or the source folder if that
cannot be opened -/
def OriginalOf (m : MigWorld) (man : DMap) (cs : Str) (data : Bytes) : Prop :=
  ∃ src rest, mget man cs = some (src :: rest) ∧
    (m.readContent src = some data ∨
      m.readContent src = none ∧ ∃ fs p x, m.sourceFS = some fs ∧ m.extractPath p = .ok x ∧ fs x = some data)

/-- The names that migrations bring in are new, distinct for different files, and different for original and result. -/
structure NoClash (inv : Inv) (st : DMap) (results : List Str) (todo : List (Str × MigFun)) : Prop where
  fresh : ∀ x ∈ todo, ∀ t ∈ migNew x.2 inv.head (decide (x.1 ∈ results)) (mgetD st x.1), ∀ v, ¬ HasPath inv v t
  apart : todo.Pairwise (fun x y => ∀ t ∈ migNew x.2 inv.head (decide (x.1 ∈ results)) (mgetD st x.1),
    t ∉ migNew y.2 inv.head (decide (y.1 ∈ results)) (mgetD st y.1))
  own : ∀ x ∈ todo, x.2.strategy = .folder →
    ((mgetD st x.1).map (folderDest (decide (x.1 ∈ results)))).Nodup ∧
    ∀ t ∈ migTargets x.2 inv.head (decide (x.1 ∈ results)) (mgetD st x.1),
      t ∉ (mgetD st x.1).map (folderDest (decide (x.1 ∈ results)))

theorem step_oneDigest' {inv inv' : Inv} {n : Nat} {ns : List Str} {mp dig : Str} {cs : AMap Str Str}
    (hg : GapFree inv n) (ho : OneDigestPerPath inv) (hdig : mget cs inv.digestAlg = some dig) (hne : dig ≠ [])
    (h : addFile inv ns mp cs = .ok inv') : OneDigestPerPath inv' := by
  obtain ⟨dig', hdig', h⟩ := addFile_ok h
  rw [hdig] at hdig'
  cases hdig'
  have hne : toLower dig ≠ [] := by simpa [toLower] using hne
  obtain ⟨f1, f2, _, _, f5⟩ := addFixity_fold inv mp cs
  have := foldlM_inv (P := fun i => GapFree i n ∧ OneDigestPerPath i)
    (f := fun i nm => addName i mp (toLower dig) nm) (l := ns)
    (by
      rintro b a b' _ ⟨hb1, hb2⟩ hs
      refine ⟨(addName_headOnly hs).gapFree hb1, addName_oneDigest hb1 ?_ hb2 hne hs⟩
      obtain ⟨s, _, _, hs0, _⟩ := addName_ok hs
      exact pos_of_headState hb1 hs0)
    _ _ ⟨f5.gapFree hg, oneDigest_of_versions f1 ho⟩ h
  exact this.2

/-! ## Deleting and renaming the originals -/

theorem alreadyExists_inHead {inv : Inv} {n : Nat} (hg : GapFree inv n) (hn : 0 < n) (ho : OneDigestPerPath inv)
    {p cs : Str} (hcs : cs ≠ []) (hp : HasFile inv inv.head p cs) {b : Bool} (h : alreadyExists inv p cs = .ok b) :
    b = true := by
  obtain ⟨r, hr, rfl⟩ := (alreadyExists_ok hcs).1 h
  rw [decide_eq_true_iff, lastDigest_spec hg ho hr]
  exact (lastHas_head hg hn ho ⟨_, hp⟩).2 hp

theorem objIfExists_head {o : Obj} {n : Nat} (hg : GapFree o.inv n) (hn : 0 < n) (ho : OneDigestPerPath o.inv)
    {p cs : Str} (hcs : cs ≠ []) (hp : HasFile o.inv o.inv.head p cs) {f : Inv → Res Inv}
    (h : (objIfExists o p cs f).err = none) : ∃ i, f o.inv = .ok i ∧ (objIfExists o p cs f).obj.inv = i := by
  unfold objIfExists at h ⊢
  split at h
  · cases h
  · rename_i hw
    rw [if_neg hw]
    split at h
    · cases h
    · rename_i he
      cases alreadyExists_inHead hg hn ho hcs hp he
    · rename_i he
      unfold withInv at h ⊢
      split at h
      · rename_i i hi
        exact ⟨i, hi, rfl⟩
      · cases h

/-- what a list of deletions does -/
theorem runDeletes {w : World} {n : Nat} (hn : 0 < n) {cs : Str} (hcs : cs ≠ []) (ps : List Str) (hnd : ps.Nodup) :
    ∀ (o : Obj), GapFree o.inv n → OneDigestPerPath o.inv → (∀ p ∈ ps, HasFile o.inv o.inv.head p cs) →
    (runCalls w o (ps.map (fun p => .delete p cs))).err = none →
    OneDigestPerPath (runCalls w o (ps.map (fun p => .delete p cs))).obj.inv ∧
    ∀ q e, HasFile (runCalls w o (ps.map (fun p => .delete p cs))).obj.inv o.inv.head q e ↔
      HasFile o.inv o.inv.head q e ∧ q ∉ ps := by
  induction ps with
  | nil => intro o _ ho _ _; exact ⟨ho, by simp [runCalls, ok]⟩
  | cons p ps ih =>
    intro o hg ho hp h
    rw [List.map_cons, runCalls] at h ⊢
    obtain ⟨h1, h2⟩ := andThen_split h
    rw [andThen_none h1]
    obtain ⟨i, hi, hi'⟩ := objIfExists_head hg hn ho hcs (hp p (by simp)) h1
    obtain ⟨j, hj, hjh, hjf, _⟩ := C14_delete_exact hg hn p
    rw [hi] at hj
    cases hj
    have hh := deleteFile_headOnly hi
    have hinv : (runCall w o (.delete p cs)).obj.inv = i := hi'
    have ho1 : OneDigestPerPath i := by
      refine hh.states (P := fun s => (statePaths s).Nodup) hg.nodup ho ?_
      intro s s' hs hs' hP
      obtain ⟨s0, hs0, rfl⟩ := deleteFile_ok hi
      rw [hs] at hs0; cases hs0
      rw [headState_set_modified hs] at hs'; cases hs'
      rw [statePaths_stDelete]; exact hP.filter _
    obtain ⟨r1, r2⟩ := ih (List.nodup_cons.1 hnd).2 (runCall w o (.delete p cs)).obj (by rw [hinv]; exact hh.gapFree hg)
      (by rw [hinv]; exact ho1)
      (by
        intro q hq
        rw [hinv, hjh]
        refine (hjf q cs).2 ⟨hp q (by simp [hq]), ?_⟩
        rintro rfl
        exact (List.nodup_cons.1 hnd).1 hq) h2
    refine ⟨r1, ?_⟩
    intro q e
    rw [hinv, hjh] at r2
    rw [r2, hjf]
    simp only [List.mem_cons, not_or, and_assoc]

/-- what a list of renamings to new names does -/
theorem runRenames {w : World} {n : Nat} (hn : 0 < n) {cs : Str} (hcs : cs ≠ []) (g : Str → Str) (ps : List Str)
    (hnd : ps.Nodup) (hgn : (ps.map g).Nodup) :
    ∀ (o : Obj), GapFree o.inv n → OneDigestPerPath o.inv → (∀ p ∈ ps, HasFile o.inv o.inv.head p cs) →
    (∀ p ∈ ps, ¬ HasPath o.inv o.inv.head (g p)) →
    (runCalls w o (ps.map (fun p => .rename p (g p) cs))).err = none →
    OneDigestPerPath (runCalls w o (ps.map (fun p => .rename p (g p) cs))).obj.inv ∧
    ∀ q e, HasFile (runCalls w o (ps.map (fun p => .rename p (g p) cs))).obj.inv o.inv.head q e ↔
      (HasFile o.inv o.inv.head q e ∧ q ∉ ps) ∨ (q ∈ ps.map g ∧ e = cs) := by
  induction ps with
  | nil => intro o _ ho _ _ _; exact ⟨ho, by simp [runCalls, ok]⟩
  | cons p ps ih =>
    intro o hg ho hp hnew h
    rw [List.map_cons, runCalls] at h ⊢
    obtain ⟨h1, h2⟩ := andThen_split h
    rw [andThen_none h1]
    have hp0 := hp p (by simp)
    obtain ⟨i, hi, hi'⟩ := objIfExists_head hg hn ho hcs hp0 h1
    obtain ⟨j, hj, hjh, hjf, _⟩ := C15_rename_exact hg hn p (g p)
    rw [hi] at hj
    cases hj
    have hh := renameFile_headOnly hi
    have hinv : (runCall w o (.rename p (g p) cs)).obj.inv = i := hi'
    have hne : ∀ q ∈ p :: ps, ∀ q' ∈ p :: ps, q ≠ g q' := by
      rintro q hq q' hq' rfl
      exact hnew q' hq' ⟨cs, hp _ hq⟩
    have ho1 : OneDigestPerPath i := by
      refine hh.states (P := fun s => (statePaths s).Nodup) hg.nodup ho ?_
      intro s s' hs hs' hP
      obtain ⟨s0, hs0, rfl⟩ := renameFile_ok hi
      rw [hs] at hs0; cases hs0
      rw [headState_set_modified hs] at hs'; cases hs'
      rw [statePaths_stRename]
      refine nodup_map_rename hP (Or.inr (Or.inr ?_))
      rw [mem_statePaths_head hg.nodup hs]
      exact hnew p (by simp)
    have huniq : ∀ e, HasFile o.inv o.inv.head p e ↔ e = cs := by
      intro e
      constructor
      · intro he
        obtain ⟨s, hs⟩ := hg.headState hn
        obtain ⟨v, hv, hvs⟩ := headState_eq_ok.1 hs
        have hone := ho _ _ (mem_of_mget hv)
        rw [hvs] at hone
        exact inSt_unique hone ((hasFile_head hg.nodup hs).1 he) ((hasFile_head hg.nodup hs).1 hp0)
      · rintro rfl; exact hp0
    rw [List.map_cons, List.nodup_cons] at hgn
    rw [List.nodup_cons] at hnd
    obtain ⟨r1, r2⟩ := ih hnd.2 hgn.2 (runCall w o (.rename p (g p) cs)).obj
      (by rw [hinv]; exact hh.gapFree hg) (by rw [hinv]; exact ho1)
      (by
        intro q hq
        rw [hinv, hjh]
        refine (hjf q cs).2 (Or.inl ⟨?_, hp q (by simp [hq])⟩)
        rintro rfl
        exact hnd.1 hq)
      (by
        rintro q hq ⟨e, he⟩
        rw [hinv, hjh] at he
        rcases (hjf _ _).1 he with ⟨_, h⟩ | ⟨h, _⟩
        · exact hnew q (by simp [hq]) ⟨e, h⟩
        · exact hgn.1 (h ▸ List.mem_map_of_mem hq)) h2
    refine ⟨r1, ?_⟩
    intro q e
    rw [hinv, hjh] at r2
    rw [r2, hjf, huniq]
    simp only [List.map_cons, List.mem_cons, not_or]
    constructor
    · rintro (⟨⟨h3, h4⟩ | ⟨h3, h4⟩, h5⟩ | h3)
      · exact Or.inl ⟨h4, h3, h5⟩
      · exact Or.inr ⟨Or.inl h3, h4⟩
      · exact Or.inr ⟨Or.inr h3.1, h3.2⟩
    · rintro (⟨h3, h4, h5⟩ | ⟨h3 | h3, h4⟩)
      · exact Or.inl ⟨Or.inl ⟨h4, h3⟩, h5⟩
      · subst h3
        exact Or.inl ⟨Or.inr ⟨rfl, h4⟩, fun hq => hne _ (List.mem_cons_of_mem _ hq) p (by simp) rfl⟩
      · exact Or.inr ⟨h3, h4⟩

/-! ## One file -/

theorem mapM_roundTrip {f g : Str → Res Str} {ts xs : List Str} (hrt : ∀ t ∈ ts, ∀ x, f t = .ok x → g x = .ok t)
    (h : ts.mapM f = .ok xs) : xs.mapM g = .ok ts := by
  induction ts generalizing xs with
  | nil => cases h; rfl
  | cons t ts ih =>
    rw [List.mapM_cons] at h
    obtain ⟨x, hx, h⟩ := res_bind_eq_ok.1 h
    obtain ⟨ys, hy, h⟩ := res_bind_eq_ok.1 h
    cases h
    rw [List.mapM_cons, hrt t (by simp) x hx, res_bind_ok, ih (fun t ht => hrt t (by simp [ht])) hy]
    rfl

theorem objAddReader_err_inv {w : World} {o : Obj} {files : List Str} {area : Str} {data : Bytes} {e : GoErr}
    (h : (objAddReader w o files area data).err = some e) : (objAddReader w o files area data).obj.inv = o.inv := by
  unfold objAddReader at h ⊢
  split
  · rfl
  · split
    · rfl
    · split
      · rfl
      · rename_i h1 h2 _ names mp hb
        rw [if_neg h1, if_neg h2, hb] at h
        simp only at h
        unfold addReader at h ⊢
        split
        · rfl
        · rename_i cs hc
          simp only [hc] at h
          unfold withInv at h ⊢
          split
          · rename_i i hi
            rw [hi] at h
            cases h
          · rfl

/-- what storing one content under several names does -/
theorem objAddReader_files {w : World} {o : Obj} {n : Nat} (hg : GapFree o.inv n) (hn : 0 < n)
    (ho : OneDigestPerPath o.inv) (hx : HexHash w) {ex ts : List Str} {area : Str} {data : Bytes}
    (hts : ex.mapM (fun f => w.statePath f area) = .ok ts)
    (hok : ∀ t ∈ ts, HasPath o.inv o.inv.head t ∨ ∀ v, ¬ HasPath o.inv v t)
    (h : (objAddReader w o ex area data).err = none) :
    ∃ hf, w.hash o.inv.digestAlg = some hf ∧ OneDigestPerPath (objAddReader w o ex area data).obj.inv ∧
      (∀ t ∈ ts, ∀ e, HasFile (objAddReader w o ex area data).obj.inv o.inv.head t e ↔ e = toLower (hf data)) ∧
      ∀ q ∉ ts, ∀ e, HasFile (objAddReader w o ex area data).obj.inv o.inv.head q e ↔ HasFile o.inv o.inv.head q e := by
  unfold objAddReader at h ⊢
  split at h
  · cases h
  · rename_i h1
    rw [if_neg h1]
    split at h
    · cases h
    · rename_i h2
      rw [if_neg h2]
      split at h
      · cases h
      · rename_i names mp hb
        unfold buildNames at hb
        rw [hts, res_bind_ok] at hb
        obtain ⟨i, hi, hb⟩ := res_bind_eq_ok.1 hb
        cases hb
        unfold addReader at h ⊢
        split at h
        · cases h
        · rename_i cs hcs
          unfold withInv at h ⊢
          split at h
          · rename_i j hj
            obtain ⟨dig, hdig, _⟩ := addFile_ok hj
            obtain ⟨hf, hhf, hd⟩ := checksums_get hcs hdig
            have hne : dig ≠ [] := by rw [hd]; exact (hx _ _ _ hhf).1
            have hh := addFile_headOnly hj
            obtain ⟨r1, r2⟩ := C08_add_file_partial hg hn ho hdig hne (by
              intro t ht
              rcases hok t ht with hp | hp
              · exact Or.inl hp
              · right
                rintro ⟨k, _, _, hk, _⟩
                exact hp _ ⟨_, hk⟩) hj
            rw [hh.head] at r1 r2
            refine ⟨hf, hhf, ?_, ?_, r2⟩
            · exact step_oneDigest' hg ho hdig hne hj
            · rw [← hd]; exact r1
          · cases h

/-- what is planned -/
theorem migPlan_ok {m : MigWorld} {inv : Inv} {prev : Str} {migrated : Bool} {cs : Str} {f : MigFun} {ver : Version}
    {p : MigPlan} (hv : mget inv.versions prev = some ver) (h : migPlan m inv prev migrated cs f = .ok (some p)) :
    mget ver.state cs = some p.files ∧ p.targets = migTargets f inv.head migrated p.files ∧
      p.targets.mapM m.extractPath = .ok p.extract ∧ OriginalOf m inv.manifest cs p.data ∧
      ∃ rest, mget inv.manifest cs = some (p.source :: rest) := by
  unfold migPlan at h
  split at h
  · cases h
  · rename_i man hman
    rw [hv] at h
    simp only at h
    split at h
    · cases h
    · rename_i files hfiles
      split at h
      · cases h
      · split at h
        · cases h
        · rename_i src rest
          obtain ⟨c, hc, h⟩ := res_bind_eq_ok.1 h
          split at h
          · cases h
          · rename_i data
            obtain ⟨ex, hex, h⟩ := res_bind_eq_ok.1 h
            split at h
            · cases h
            · obtain ⟨mp, _, h⟩ := res_bind_eq_ok.1 h
              cases h
              refine ⟨hfiles, rfl, hex, ?_, rest, hman⟩
              refine ⟨src, rest, hman, ?_⟩
              unfold migSource at hc
              split at hc
              · rename_i b hb
                cases hc
                exact Or.inl hb
              · rename_i hb
                split at hc
                · cases hc
                · rename_i fs hfs
                  split at hc
                  · cases hc
                  · split at hc
                    · cases hc
                    · split at hc
                      · cases hc
                      · rename_i q _
                        obtain ⟨x, hx, hc⟩ := res_bind_eq_ok.1 hc
                        split at hc
                        · cases hc
                        · rename_i b hb'
                          cases hc
                          exact Or.inr ⟨hb, fs, q, x, hfs, hx, hb'⟩

/-- `data` is the content that is stored first for the digest or, if that cannot be opened, what the source folder has under the last of its
names in the version -/
def MigratedFrom (m : MigWorld) (inv : Inv) (cs src : Str) (data : Bytes) : Prop :=
  (∃ rest, mget inv.manifest cs = some (src :: rest)) ∧
    (m.readContent src = some data ∨
      m.readContent src = none ∧ ∃ fs ver files p x, m.sourceFS = some fs ∧ mget inv.versions inv.head = some ver ∧
        mget ver.state cs = some (files ++ [p]) ∧ m.extractPath p = .ok x ∧ fs x = some data)

theorem migSource_from {m : MigWorld} {inv : Inv} {cs src : Str} {rest : List Str} {data : Bytes} (hm : mget inv.manifest cs = some (src :: rest))
    (h : migSource m inv cs src = .ok (some data)) : MigratedFrom m inv cs src data := by
  refine ⟨⟨rest, hm⟩, ?_⟩
  unfold migSource at h
  split at h
  · rename_i b hb
    cases h
    exact .inl hb
  · rename_i hb
    split at h
    · cases h
    · rename_i fs hfs
      split at h
      · cases h
      · rename_i ver hver
        split at h
        · cases h
        · rename_i files hfiles
          split at h
          · cases h
          · rename_i p hp
            obtain ⟨x, hx, h⟩ := res_bind_eq_ok.1 h
            split at h
            · cases h
            · rename_i b hb'
              cases h
              obtain ⟨l, rfl⟩ := List.getLast?_eq_some_iff.1 hp
              exact .inr ⟨hb, fs, ver, l, p, x, hfs, hver, hfiles, hx, hb'⟩

/-- **C89, what is migrated**: if a migration is recorded, the command was given the content of the file and no other. -/
theorem C89_source {m : MigWorld} {o : Obj} {prev : Str} {migrated : Bool} {cs : Str} {f : MigFun} {l : MigLine}
    (hl : l ∈ (migrateOne m prev migrated o cs f).lines) (hf : l.failed = false) :
    ∃ data data' ex, MigratedFrom m o.inv cs l.source data ∧ f.run data = some data' ∧
      (objAddReader m.w o ex "content".toList data').err = none := by
  unfold migrateOne at hl
  cases hp : migPlan m o.inv prev migrated cs f with
  | error e => rw [hp] at hl; cases hl
  | ok r =>
    rw [hp] at hl
    cases r with
    | none => cases hl
    | some p =>
      have hsrc : MigratedFrom m o.inv cs p.source p.data := by
        unfold migPlan at hp
        split at hp
        · cases hp
        · rename_i man hman
          split at hp
          · cases hp
          · split at hp
            · cases hp
            · split at hp
              · cases hp
              · split at hp
                · cases hp
                · rename_i src rest
                  obtain ⟨c, hc, hp⟩ := res_bind_eq_ok.1 hp
                  split at hp
                  · cases hp
                  · rename_i data
                    obtain ⟨ex, hex, hp⟩ := res_bind_eq_ok.1 hp
                    split at hp
                    · cases hp
                    · obtain ⟨mp, _, hp⟩ := res_bind_eq_ok.1 hp
                      cases hp
                      exact migSource_from hman hc
      simp only at hl
      rcases hd : doMigrate m o f p with ⟨o1, er⟩
      rw [hd] at hl
      cases er with
      | some x =>
        cases x with
        | panic x => cases hl
        | error x => rw [List.mem_singleton.1 hl] at hf; cases hf
      | none =>
        unfold doMigrate at hd
        split at hd
        · cases hd
        · rename_i data' hrun
          rw [List.mem_singleton.1 hl]
          exact ⟨p.data, data', p.extract, hsrc, hrun, congrArg Out.err hd⟩

theorem headUnique {inv : Inv} {n : Nat} (hg : GapFree inv n) (hn : 0 < n) (ho : OneDigestPerPath inv) {p d e : Str}
    (hd : HasFile inv inv.head p d) (he : HasFile inv inv.head p e) : e = d := by
  obtain ⟨s, hs⟩ := hg.headState hn
  obtain ⟨v, hv, hvs⟩ := headState_eq_ok.1 hs
  have hone := ho _ _ (mem_of_mget hv)
  rw [hvs] at hone
  exact inSt_unique hone ((hasFile_head hg.nodup hs).1 he) ((hasFile_head hg.nodup hs).1 hd)

theorem mem_migNew_target {f : MigFun} {head : Str} {migrated : Bool} {files : List Str} {t : Str}
    (ht : t ∈ migTargets f head migrated files) (hf : t ∉ files) : t ∈ migNew f head migrated files := by
  unfold migNew
  exact List.mem_append_left _ (List.mem_filter.2 ⟨ht, by simpa using hf⟩)

theorem mem_migNew_folder {f : MigFun} {head : Str} {migrated : Bool} {files : List Str} {p : Str}
    (hs : f.strategy = .folder) (hp : p ∈ files) (ht : p ∉ migTargets f head migrated files) :
    folderDest migrated p ∈ migNew f head migrated files := by
  unfold migNew
  rw [if_pos hs]
  exact List.mem_append_right _ (List.mem_map_of_mem (List.mem_filter.2 ⟨hp, by simpa using ht⟩))

/-- One file: either everything is as before, or it has been migrated; no other file is affected. -/
theorem migrateOne_spec {m : MigWorld} {o : Obj} {n : Nat} {prev : Str} {ver : Version} {migrated : Bool} {cs : Str}
    {f : MigFun} (hg : GapFree o.inv n) (hn : 0 < n) (ho : OneDigestPerPath o.inv) (hx : HexHash m.w)
    (hv : mget o.inv.versions prev = some ver) (hcs : cs ≠ []) (hnd : (mgetD ver.state cs).Nodup)
    (hfiles : ∀ p ∈ mgetD ver.state cs, HasFile o.inv o.inv.head p cs)
    (hfresh : ∀ t ∈ migNew f o.inv.head migrated (mgetD ver.state cs), ∀ v, ¬ HasPath o.inv v t)
    (hown : f.strategy = .folder → ((mgetD ver.state cs).map (folderDest migrated)).Nodup ∧
      ∀ t ∈ migTargets f o.inv.head migrated (mgetD ver.state cs), t ∉ (mgetD ver.state cs).map (folderDest migrated))
    (hrt : ∀ t ∈ migTargets f o.inv.head migrated (mgetD ver.state cs), ∀ x, m.extractPath t = .ok x →
      m.w.statePath x "content".toList = .ok t)
    (h : (migrateOne m prev migrated o cs f).out.err = none) :
    CallStep m.w (fun _ _ => True) o (migrateOne m prev migrated o cs f).out.obj ∧
    OneDigestPerPath (migrateOne m prev migrated o cs f).out.obj.inv ∧
    (∀ q ∉ mgetD ver.state cs, q ∉ migNew f o.inv.head migrated (mgetD ver.state cs) → ∀ e,
      HasFile (migrateOne m prev migrated o cs f).out.obj.inv o.inv.head q e ↔ HasFile o.inv o.inv.head q e) ∧
    ((NotMigrated cs (mgetD ver.state cs) (HasFile (migrateOne m prev migrated o cs f).out.obj.inv o.inv.head) ∧
        ∀ l ∈ (migrateOne m prev migrated o cs f).lines, l.failed = true) ∨
      ∃ data data' hf src rest, OriginalOf m o.inv.manifest cs data ∧ f.run data = some data' ∧
        m.w.hash o.inv.digestAlg = some hf ∧ mget o.inv.manifest cs = some (src :: rest) ∧
        (∃ p, ⟨p, src, false, f.id⟩ ∈ (migrateOne m prev migrated o cs f).lines) ∧
        Migrated f o.inv.head migrated cs (mgetD ver.state cs) (toLower (hf data'))
          (HasFile (migrateOne m prev migrated o cs f).out.obj.inv o.inv.head)) := by
  have hkeep : NotMigrated cs (mgetD ver.state cs) (HasFile o.inv o.inv.head) := by
    intro p hp e
    exact ⟨headUnique hg hn ho (hfiles p hp), fun he => he ▸ hfiles p hp⟩
  unfold migrateOne at h ⊢
  cases hp : migPlan m o.inv prev migrated cs f with
  | error e => rw [hp] at h; cases h
  | ok r =>
    rw [hp] at h
    cases r with
    | none => exact ⟨CallStep.refl o, ho, fun _ _ _ _ => Iff.rfl, Or.inl ⟨hkeep, by simp⟩⟩
    | some p =>
      simp only at h ⊢
      obtain ⟨p1, p2, p3, p4, rest, p5⟩ := migPlan_ok hv hp
      have hfl : p.files = mgetD ver.state cs := by unfold mgetD; rw [p1]; rfl
      rw [hfl] at p2
      have hts := mapM_roundTrip (g := fun x => m.w.statePath x "content".toList) (by rw [p2]; exact hrt) p3
      have hstep : CallStep m.w (fun _ _ => True) o (doMigrate m o f p).obj := by
        unfold doMigrate
        split
        · exact CallStep.refl o
        · exact objAddReader_step trivial
      rcases hd : doMigrate m o f p with ⟨o1, er⟩
      rw [hd] at h hstep
      simp only at hstep
      cases er with
      | some x =>
        cases x with
        | panic x => cases h
        | error x =>
          simp only
          have hinv : o1.inv = o.inv := by
            unfold doMigrate at hd
            split at hd
            · unfold fail at hd
              cases hd
              rfl
            · have := objAddReader_err_inv (congrArg Out.err hd)
              rw [hd] at this
              exact this
          unfold ok
          simp only [hinv]
          exact ⟨hstep, ho, by simp, Or.inl ⟨hkeep, by simp⟩⟩
      | none =>
        simp only at h ⊢
        unfold doMigrate at hd
        split at hd
        · cases hd
        · rename_i data' hrun
          obtain ⟨hf, hhf, a1, a2, a3⟩ := objAddReader_files hg hn ho hx hts (by
            intro t ht
            rw [p2] at ht
            by_cases htf : t ∈ mgetD ver.state cs
            · exact Or.inl ⟨_, hfiles t htf⟩
            · exact Or.inr (hfresh t (mem_migNew_target ht htf))) (congrArg Out.err hd)
          rw [hd] at a1 a2 a3
          simp only at a1 a2 a3
          have hh := hstep.headOnly
          have hg1 := hh.gapFree hg
          have hmem : ∀ q, q ∈ (mgetD ver.state cs).filter (fun q => decide (q ∉ p.targets)) ↔
              q ∈ mgetD ver.state cs ∧ q ∉ p.targets := by intro q; simp
          have hrest : ∀ q ∈ (mgetD ver.state cs).filter (fun q => decide (q ∉ p.targets)), HasFile o1.inv o1.inv.head q cs := by
            intro q hq
            rw [hh.head]
            exact (a3 q ((hmem q).1 hq).2 cs).2 (hfiles q ((hmem q).1 hq).1)
          have hnd' : ((mgetD ver.state cs).filter (fun q => decide (q ∉ p.targets))).Nodup := hnd.filter _
          refine ⟨hstep.trans (runCalls_step _ fun _ _ _ _ => trivial), ?_⟩
          have hfin : OneDigestPerPath (runCalls m.w o1 (migAfter f migrated cs p)).obj.inv ∧
              (∀ q ∉ mgetD ver.state cs, q ∉ migNew f o.inv.head migrated (mgetD ver.state cs) → ∀ e,
                HasFile (runCalls m.w o1 (migAfter f migrated cs p)).obj.inv o.inv.head q e ↔
                  HasFile o.inv o.inv.head q e) ∧
              Migrated f o.inv.head migrated cs (mgetD ver.state cs) (toLower (hf data'))
                (HasFile (runCalls m.w o1 (migAfter f migrated cs p)).obj.inv o.inv.head) := by
            have hnt : ∀ q ∉ mgetD ver.state cs, q ∉ migNew f o.inv.head migrated (mgetD ver.state cs) → q ∉ p.targets := by
              intro q hq hq' ht
              rw [p2] at ht
              exact hq' (mem_migNew_target ht hq)
            unfold migAfter at h ⊢
            unfold Migrated
            rw [hfl] at h ⊢
            rw [← p2]
            cases hs : f.strategy with
            | add =>
              simp only [hs] at h ⊢
              refine ⟨a1, fun q hq hq' e => a3 q (hnt q hq hq') e, a2, ?_⟩
              intro q hq hq' e
              show HasFile o1.inv o.inv.head q e ↔ _
              rw [a3 q hq' e, hkeep q hq e]
            | replace =>
              simp only [hs] at h ⊢
              obtain ⟨r1, r2⟩ := runDeletes hn hcs _ hnd' o1 hg1 a1 hrest h
              rw [hh.head] at r2
              refine ⟨r1, ?_, ?_, ?_⟩
              · intro q hq hq' e
                rw [r2, a3 q (hnt q hq hq') e, hmem]
                exact ⟨fun h => h.1, fun h => ⟨h, fun h' => hq h'.1⟩⟩
              · intro t ht e
                rw [r2, a2 t ht e, hmem]
                exact ⟨fun h => h.1, fun h => ⟨h, fun h' => h'.2 ht⟩⟩
              · intro q hq hq' e he
                exact ((r2 q e).1 he).2 ((hmem q).2 ⟨hq, hq'⟩)
            | folder =>
              simp only [hs] at h ⊢
              obtain ⟨ow1, ow2⟩ := hown hs
              have hnew : ∀ q ∈ (mgetD ver.state cs).filter (fun q => decide (q ∉ p.targets)),
                  folderDest migrated q ∈ migNew f o.inv.head migrated (mgetD ver.state cs) := by
                intro q hq
                exact mem_migNew_folder hs ((hmem q).1 hq).1 (by rw [← p2]; exact ((hmem q).1 hq).2)
              have hdt : ∀ q ∈ (mgetD ver.state cs).filter (fun q => decide (q ∉ p.targets)),
                  folderDest migrated q ∉ p.targets := by
                intro q hq ht
                exact ow2 _ (by rw [← p2]; exact ht) (List.mem_map_of_mem ((hmem q).1 hq).1)
              obtain ⟨r1, r2⟩ := runRenames hn hcs (folderDest migrated) _ hnd'
                (ow1.sublist ((List.filter_sublist).map _)) o1 hg1 a1 hrest (by
                  rintro q hq ⟨e, he⟩
                  rw [hh.head] at he
                  exact hfresh _ (hnew q hq) _ ⟨e, (a3 _ (hdt q hq) e).1 he⟩) h
              rw [hh.head] at r2
              refine ⟨r1, ?_, ?_, ?_⟩
              · intro q hq hq' e
                rw [r2, a3 q (hnt q hq hq') e]
                constructor
                · rintro (h | h)
                  · exact h.1
                  · obtain ⟨q', h1, rfl⟩ := List.mem_map.1 h.1
                    exact absurd (hnew q' h1) hq'
                · intro h
                  exact Or.inl ⟨h, fun h' => hq ((hmem q).1 h').1⟩
              · intro t ht e
                rw [r2, a2 t ht e]
                constructor
                · rintro (h | h)
                  · exact h.1
                  · obtain ⟨q', h1, rfl⟩ := List.mem_map.1 h.1
                    exact absurd ht (hdt q' h1)
                · intro h
                  exact Or.inl ⟨h, fun h' => ((hmem t).1 h').2 ht⟩
              · intro q hq hq'
                have hqf := (hmem q).2 ⟨hq, hq'⟩
                refine ⟨?_, ?_⟩
                · intro e he
                  rcases (r2 q e).1 he with h | h
                  · exact h.2 hqf
                  · obtain ⟨q', h1, rfl⟩ := List.mem_map.1 h.1
                    exact hfresh _ (hnew q' h1) _ ⟨cs, hfiles _ hq⟩
                · intro e
                  rw [r2]
                  constructor
                  · rintro (h | h)
                    · exact absurd ⟨e, (a3 _ (hdt q hqf) e).1 h.1⟩ (hfresh _ (hnew q hqf) _)
                    · exact h.2
                  · intro h
                    exact Or.inr ⟨List.mem_map_of_mem hqf, h⟩
          obtain ⟨f1, f2, f3⟩ := hfin
          refine ⟨f1, f2, Or.inr ⟨p.data, data', hf, p.source, rest, p4, hrun, hhf, p5, ⟨p.path, by simp⟩, f3⟩⟩

/-! ## All files -/

theorem Migrated.congr {f : MigFun} {head : Str} {migrated : Bool} {cs : Str} {files : List Str} {dig : Str}
    {R S : Str → Str → Prop} (h : Migrated f head migrated cs files dig R)
    (hrs : ∀ q, q ∈ files ∨ q ∈ migNew f head migrated files → ∀ e, S q e ↔ R q e) :
    Migrated f head migrated cs files dig S := by
  have ht : ∀ t ∈ migTargets f head migrated files, ∀ e, S t e ↔ R t e := by
    intro t ht
    by_cases hf : t ∈ files
    · exact hrs t (Or.inl hf)
    · exact hrs t (Or.inr (mem_migNew_target ht hf))
  refine ⟨fun t htt e => (ht t htt e).trans (h.1 t htt e), ?_⟩
  intro p hp hpt
  have h2 := h.2 p hp hpt
  have hpp := hrs p (Or.inl hp)
  cases hs : f.strategy with
  | add =>
    simp only [hs] at h2 ⊢
    exact fun e => (hpp e).trans (h2 e)
  | replace =>
    simp only [hs] at h2 ⊢
    exact fun e he => h2 e ((hpp e).1 he)
  | folder =>
    simp only [hs] at h2 ⊢
    exact ⟨fun e he => h2.1 e ((hpp e).1 he), fun e =>
      (hrs _ (Or.inr (mem_migNew_folder hs hp hpt)) e).trans (h2.2 e)⟩

/-- What becomes of one file of the list. -/
def MigResult (m : MigWorld) (f : MigFun) (migrated : Bool) (cs : Str) (files : List Str) (lines : List MigLine)
    (inv : Inv) : Prop :=
  NotMigrated cs files (HasFile inv inv.head) ∨
  ∃ data data' hf src rest, OriginalOf m inv.manifest cs data ∧ f.run data = some data' ∧
    m.w.hash inv.digestAlg = some hf ∧ mget inv.manifest cs = some (src :: rest) ∧
    (∃ p, ⟨p, src, false, f.id⟩ ∈ lines) ∧
    Migrated f inv.head migrated cs files (toLower (hf data')) (HasFile inv inv.head)

/-- **C89**, the version made for migrations, for names that do not clash: every file with a content to migrate is as
before or migrated as the strategy says, with the result of the command under each of its new names, and all other files
are as they were. -/
theorem C89_migration_partial {m : MigWorld} {n : Nat} {prev : Str} {ver : Version} {results before : List Str}
    (hn : 0 < n) (hx : HexHash m.w) (todo : List (Str × MigFun)) :
    ∀ (o : Obj), GapFree o.inv n → OneDigestPerPath o.inv → prev ≠ o.inv.head →
    mget o.inv.versions prev = some ver → (∀ x ∈ todo, x.1 ≠ []) → (todo.map (·.1)).Nodup →
    (∀ x ∈ todo, (mgetD ver.state x.1).Nodup ∧ ∀ p ∈ mgetD ver.state x.1, HasFile o.inv o.inv.head p x.1) →
    NoClash o.inv ver.state results todo →
    (∀ x ∈ todo, ∀ t ∈ migTargets x.2 o.inv.head (decide (x.1 ∈ results)) (mgetD ver.state x.1), ∀ y,
      m.extractPath t = .ok y → m.w.statePath y "content".toList = .ok t) →
    (migrateFiles m prev results before o todo).out.err = none →
    HeadOnly o.inv (migrateFiles m prev results before o todo).out.obj.inv ∧
    OneDigestPerPath (migrateFiles m prev results before o todo).out.obj.inv ∧
    ManifestGrows o.inv.manifest (migrateFiles m prev results before o todo).out.obj.inv.manifest ∧
    (∀ q, (∀ x ∈ todo, x.1 ∉ before → q ∉ mgetD ver.state x.1 ∧
        q ∉ migNew x.2 o.inv.head (decide (x.1 ∈ results)) (mgetD ver.state x.1)) →
      ∀ e, HasFile (migrateFiles m prev results before o todo).out.obj.inv o.inv.head q e ↔
        HasFile o.inv o.inv.head q e) ∧
    ∀ x ∈ todo, (x.1 ∈ before → NotMigrated x.1 (mgetD ver.state x.1)
        (HasFile (migrateFiles m prev results before o todo).out.obj.inv o.inv.head)) ∧
      MigResult m x.2 (decide (x.1 ∈ results)) x.1 (mgetD ver.state x.1)
        (migrateFiles m prev results before o todo).lines (migrateFiles m prev results before o todo).out.obj.inv := by
  induction todo with
  | nil =>
    intro o hg ho _ _ _ _ _ _ _ _
    exact ⟨HeadOnly.refl _, ho, ManifestGrows.refl _, fun _ _ _ => Iff.rfl, by simp⟩
  | cons x todo ih =>
    intro o hg ho hpr hv hne hkeys hfiles hcl hrt h
    obtain ⟨cs, f⟩ := x
    rw [List.map_cons, List.nodup_cons] at hkeys
    obtain ⟨c1, c2, c3⟩ := hcl
    rw [List.pairwise_cons] at c2
    have hx0 := hfiles (cs, f) (by simp)
    -- a file of the first entry is no file of the others, and no new name of any entry
    have hsep : ∀ y ∈ todo, ∀ q ∈ mgetD ver.state cs, q ∉ mgetD ver.state y.1 := by
      intro y hy q hq hq'
      have := headUnique hg hn ho (hx0.2 q hq) ((hfiles y (by simp [hy])).2 q hq')
      exact hkeys.1 (List.mem_map.2 ⟨y, hy, this⟩)
    have hsepN : ∀ y ∈ (cs, f) :: todo, ∀ z ∈ (cs, f) :: todo, ∀ q ∈ mgetD ver.state y.1,
        q ∉ migNew z.2 o.inv.head (decide (z.1 ∈ results)) (mgetD ver.state z.1) := by
      intro y hy z hz q hq hq'
      exact c1 z hz q hq' _ ⟨_, (hfiles y hy).2 q hq⟩
    rw [migrateFiles] at h ⊢
    by_cases hb : cs ∈ before
    · rw [if_pos hb] at h ⊢
      obtain ⟨r1, r2, r3, r4, r5⟩ := ih o hg ho hpr hv (fun x hx => hne x (by simp [hx])) hkeys.2
        (fun x hx => hfiles x (by simp [hx]))
        ⟨fun x hx => c1 x (by simp [hx]), c2.2, fun x hx => c3 x (by simp [hx])⟩ (fun x hx => hrt x (by simp [hx])) h
      have hnot : NotMigrated cs (mgetD ver.state cs)
          (HasFile (migrateFiles m prev results before o todo).out.obj.inv o.inv.head) := by
        intro p hp e
        rw [r4 p (fun y hy _ => ⟨hsep y hy p hp, hsepN (cs, f) (by simp) y (by simp [hy]) p hp⟩) e]
        exact ⟨headUnique hg hn ho (hx0.2 p hp), fun he => he ▸ hx0.2 p hp⟩
      refine ⟨r1, r2, r3, ?_, ?_⟩
      · intro q hq e
        exact r4 q (fun x hx => hq x (by simp [hx])) e
      · intro x hx
        rcases List.mem_cons.1 hx with rfl | hx
        · refine ⟨fun _ => hnot, Or.inl ?_⟩
          rw [r1.head]
          exact hnot
        · exact r5 x hx
    · rw [if_neg hb] at h ⊢
      have hone : (migrateOne m prev (decide (cs ∈ results)) o cs f).out.err = none := by
        rcases hm : migrateOne m prev (decide (cs ∈ results)) o cs f with ⟨⟨o1, er⟩, ls⟩
        rw [hm] at h
        cases er with
        | none => rfl
        | some e => cases h
      obtain ⟨s1, s2, s3, s4⟩ := migrateOne_spec hg hn ho hx hv (hne (cs, f) (by simp)) hx0.1 hx0.2 (c1 (cs, f) (by simp))
        (c3 (cs, f) (by simp)) (hrt (cs, f) (by simp)) hone
      rcases hm : migrateOne m prev (decide (cs ∈ results)) o cs f with ⟨⟨o1, er⟩, ls⟩
      rw [hm] at h s1 s2 s3 s4 hone
      simp only at s1 s2 s3 s4 hone
      subst hone
      simp only at h ⊢
      have hh := s1.headOnly
      have hmg : ManifestGrows o.inv.manifest o1.inv.manifest := by
        obtain ⟨ops, hops, _⟩ := s1.inv
        exact fun d ms hd => C12_manifest_only_grows hops hd
      have hfr : ∀ q, (q ∉ mgetD ver.state cs) → q ∉ migNew f o.inv.head (decide (cs ∈ results)) (mgetD ver.state cs) →
          ∀ v, HasPath o1.inv v q → HasPath o.inv v q := by
        rintro q hq hq' v ⟨e, he⟩
        by_cases hvh : v = o.inv.head
        · subst hvh
          exact ⟨e, (s3 q hq hq' e).1 he⟩
        · exact ⟨e, (hh.hasFile_other hg.nodup hvh).1 he⟩
      have hnewf : ∀ y ∈ todo, ∀ t ∈ migNew y.2 o.inv.head (decide (y.1 ∈ results)) (mgetD ver.state y.1),
          t ∉ mgetD ver.state cs ∧ t ∉ migNew f o.inv.head (decide (cs ∈ results)) (mgetD ver.state cs) := by
        intro y hy t ht
        exact ⟨fun hq => hsepN (cs, f) (by simp) y (by simp [hy]) t hq ht, fun hq => c2.1 y hy t hq ht⟩
      have hv1 : mget o1.inv.versions prev = some ver := by
        rw [hh.other prev hpr]
        exact hv
      obtain ⟨r1, r2, r3, r4, r5⟩ := ih o1 (hh.gapFree hg) s2 (by rw [hh.head]; exact hpr) hv1
        (fun x hx => hne x (by simp [hx])) hkeys.2
        (fun y hy => ⟨(hfiles y (by simp [hy])).1, fun p hp => by
          rw [hh.head]
          refine (s3 p (fun hq => hsep y hy p hq hp) (hsepN y (by simp [hy]) (cs, f) (by simp) p hp) _).2 ?_
          exact (hfiles y (by simp [hy])).2 p hp⟩)
        ⟨fun y hy t ht v hp => by
            rw [hh.head] at ht
            obtain ⟨n1, n2⟩ := hnewf y hy t ht
            exact c1 y (by simp [hy]) t ht v (hfr t n1 n2 v hp),
          by rw [hh.head]; exact c2.2,
          by rw [hh.head]; exact fun y hy => c3 y (by simp [hy])⟩
        (by rw [hh.head]; exact fun x hx => hrt x (by simp [hx])) h
      rw [hh.head] at r4 r5
      refine ⟨hh.trans r1, r2, hmg.trans r3, ?_, ?_⟩
      · intro q hq e
        rw [r4 q (fun y hy hyb => hq y (by simp [hy]) hyb) e]
        obtain ⟨q1, q2⟩ := hq (cs, f) (by simp) hb
        exact s3 q q1 q2 e
      · intro y hy
        rcases List.mem_cons.1 hy with rfl | hy
        · refine ⟨fun hb' => absurd hb' hb, ?_⟩
          have hq : ∀ q, q ∈ mgetD ver.state cs ∨ q ∈ migNew f o.inv.head (decide (cs ∈ results)) (mgetD ver.state cs) →
              ∀ e, HasFile (migrateFiles m prev results before o1 todo).out.obj.inv o.inv.head q e ↔
                HasFile o1.inv o.inv.head q e := by
            intro q hq
            refine r4 q fun y hy _ => ?_
            rcases hq with hq | hq
            · exact ⟨hsep y hy q hq, hsepN (cs, f) (by simp) y (by simp [hy]) q hq⟩
            · exact ⟨fun h' => hsepN y (by simp [hy]) (cs, f) (by simp) q h' hq, c2.1 y hy q hq⟩
          unfold MigResult
          rw [(hh.trans r1).head, (hh.trans r1).alg]
          rcases s4 with ⟨s4, _⟩ | ⟨data, data', hf, src, rest, t1, t2, t3, t4, ⟨p, t5⟩, t6⟩
          · exact Or.inl (fun p hp e => (hq p (Or.inl hp) e).trans (s4 p hp e))
          · obtain ⟨ext, hext⟩ := (hmg.trans r3) _ _ t4
            refine Or.inr ⟨data, data', hf, src, rest ++ ext, ?_, t2, t3, hext, ⟨p, List.mem_append_left _ t5⟩,
              t6.congr hq⟩
            obtain ⟨src', rest', u1, u2⟩ := t1
            obtain ⟨ext', hext'⟩ := (hmg.trans r3) _ _ u1
            exact ⟨src', rest' ++ ext', hext', u2⟩
        · obtain ⟨r6, r7⟩ := r5 y hy
          refine ⟨r6, ?_⟩
          rcases r7 with r7 | ⟨data, data', hf, src, rest, t1, t2, t3, t4, ⟨p, t5⟩, t6⟩
          · exact Or.inl r7
          · exact Or.inr ⟨data, data', hf, src, rest, t1, t2, t3, t4, ⟨p, List.mem_append_right _ t5⟩, t6⟩

/-! ## C89: nothing is lost -/

/-- After migrations a file with content `d` at `p` is still somewhere, or has been replaced by the result. -/
def StillThere (m : MigWorld) (results : List Str) (todo : List (Str × MigFun)) (inv : Inv) (p d : Str) : Prop :=
  (∃ q, q ≠ [] ∧ HasFile inv inv.head q d) ∨
  ∃ f data data' hf, (d, f) ∈ todo ∧ f.strategy = .replace ∧ OriginalOf m inv.manifest d data ∧ f.run data = some data' ∧
    m.w.hash inv.digestAlg = some hf ∧
    HasFile inv inv.head (destName f inv.head (decide (d ∈ results)) p) (toLower (hf data'))

/-- what holds when the loop over the files to migrate starts -/
structure MigStart (m : MigWorld) (o : Obj) (n : Nat) (prev : Str) (ver : Version) (results : List Str)
    (todo : List (Str × MigFun)) : Prop where
  gapFree : GapFree o.inv n
  pos : 0 < n
  one : OneDigestPerPath o.inv
  hex : HexHash m.w
  prev_ne : prev ≠ o.inv.head
  prevVer : mget o.inv.versions prev = some ver
  keys : (todo.map (·.1)).Nodup
  digest : ∀ x ∈ todo, x.1 ≠ []
  files : ∀ x ∈ todo, (mgetD ver.state x.1).Nodup ∧ ∀ p ∈ mgetD ver.state x.1, HasFile o.inv o.inv.head p x.1
  names : ∀ p d, HasFile o.inv o.inv.head p d → p ≠ []
  roundTrip : ∀ x ∈ todo, ∀ t ∈ migTargets x.2 o.inv.head (decide (x.1 ∈ results)) (mgetD ver.state x.1), ∀ y,
    m.extractPath t = .ok y → m.w.statePath y "content".toList = .ok t

/-- **C89, in full** (false): a version made for migrations loses no file. -/
def C89_full : Prop :=
  ∀ (m : MigWorld) (o : Obj) (n : Nat) (prev : Str) (ver : Version) (results before : List Str)
    (todo : List (Str × MigFun)), MigStart m o n prev ver results todo →
    (migrateFiles m prev results before o todo).out.err = none →
    ∀ p d, HasFile o.inv o.inv.head p d →
      StillThere m results todo (migrateFiles m prev results before o todo).out.obj.inv p d

theorem folderDest_ne_nil (p : Str) : folderDest false p ≠ [] := by
  unfold folderDest
  simp only [Bool.false_eq_true, if_false]
  cases h : pathDir p with
  | nil => exact absurd h (pathClean_ne_nil _)
  | cons c t => exact pathClean_ne_nil _

/-- **C89** if the names brought in do not clash, results that are not to replace the original have another name than it,
and no result of a migration is migrated into its folder again. -/
theorem C89_nothing_lost_partial {m : MigWorld} {o : Obj} {n : Nat} {prev : Str} {ver : Version} {results before : List Str}
    {todo : List (Str × MigFun)} (hs : MigStart m o n prev ver results todo) (hc : NoClash o.inv ver.state results todo)
    (hf : ∀ x ∈ todo, x.2.strategy = .folder → x.1 ∉ results)
    (hk : ∀ x ∈ todo, x.2.strategy ≠ .replace → ∀ t ∈ migTargets x.2 o.inv.head (decide (x.1 ∈ results)) (mgetD ver.state x.1),
      t ∉ mgetD ver.state x.1)
    (h : (migrateFiles m prev results before o todo).out.err = none) {p d : Str} (hp : HasFile o.inv o.inv.head p d) :
    StillThere m results todo (migrateFiles m prev results before o todo).out.obj.inv p d := by
  obtain ⟨r1, r2, r3, r4, r5⟩ := C89_migration_partial (before := before) hs.pos hs.hex todo o hs.gapFree hs.one hs.prev_ne hs.prevVer hs.digest hs.keys hs.files
    hc hs.roundTrip h
  unfold StillThere
  rw [r1.head]
  by_cases hm : ∃ x ∈ todo, x.1 ∉ before ∧ p ∈ mgetD ver.state x.1
  · obtain ⟨x, hx, hb, hpx⟩ := hm
    have hxd : x.1 = d := headUnique hs.gapFree hs.pos hs.one hp ((hs.files x hx).2 p hpx)
    subst hxd
    rcases (r5 x hx).2 with h1 | ⟨data, data', hfn, src, rest, t1, t2, t3, t4, t5, t6⟩
    · rw [r1.head] at h1
      exact Or.inl ⟨p, hs.names _ _ hp, (h1 p hpx _).2 rfl⟩
    · rw [r1.head] at t6
      by_cases hpt : p ∈ migTargets x.2 o.inv.head (decide (x.1 ∈ results)) (mgetD ver.state x.1)
      · -- migrated in place
        cases hst : x.2.strategy with
        | replace => exact Or.inr ⟨x.2, data, data', hfn, hx, hst, t1, t2, t3,
            (t6.1 _ (List.mem_map_of_mem hpx) _).2 rfl⟩
        | add => exact absurd hpx (hk x hx (by simp [hst]) p hpt)
        | folder => exact absurd hpx (hk x hx (by simp [hst]) p hpt)
      · have h2 := t6.2 p hpx hpt
        cases hst : x.2.strategy with
        | replace => exact Or.inr ⟨x.2, data, data', hfn, hx, hst, t1, t2, t3,
            (t6.1 _ (List.mem_map_of_mem hpx) _).2 rfl⟩
        | add =>
          simp only [hst] at h2
          exact Or.inl ⟨p, hs.names _ _ hp, (h2 _).2 rfl⟩
        | folder =>
          simp only [hst] at h2
          rw [decide_eq_false (hf x hx hst)] at h2
          exact Or.inl ⟨_, folderDest_ne_nil p, (h2.2 _).2 rfl⟩
  · refine Or.inl ⟨p, hs.names _ _ hp, (r4 p ?_ d).2 hp⟩
    intro x hx hb
    exact ⟨fun hpx => hm ⟨x, hx, hb, hpx⟩, fun ht => hc.fresh x hx p ht _ ⟨d, hp⟩⟩

/-! ### An object with migrations -/

/-- an object with two files, at the start of a version made for migrations -/
def migInv : Inv :=
  { exInv with
    manifest := [("d1".toList, ["v1/content/a.tif".toList]), ("d2".toList, ["v1/content/b.jpg".toList])]
    versions :=
      [("v1".toList, ⟨[], [], [], [], [("d1".toList, ["a.tif".toList]), ("d2".toList, ["b.jpg".toList])]⟩),
       ("v2".toList, ⟨[], [], [], [], [("d1".toList, ["a.tif".toList]), ("d2".toList, ["b.jpg".toList])]⟩)]
    writeable := true }

def migObj : Obj := ⟨migInv, [], false, []⟩

/-- extensions that change no name; every content path can be read -/
def migWorld : MigWorld := ⟨exWorld, .ok, fun p => some [p.length.toUInt8], none⟩

/-- a migration function whose command appends a byte -/
def migFun (s : Strategy) (name : Str) : MigFun := ⟨s, fun _ => name, fun b => some (b ++ [0]), "f".toList⟩

def migVer : Version := ⟨[], [], [], [], [("d1".toList, ["a.tif".toList]), ("d2".toList, ["b.jpg".toList])]⟩

theorem migInv_gapFree : GapFree migInv 2 := ⟨by decide, by decide⟩

theorem exWorld_hex : HexHash exWorld := by
  intro alg h b hh
  have : (if alg = "sha512".toList then some (fun b : Bytes => 'a' :: List.replicate b.length '0') else none) = some h := hh
  split at this
  · cases this
    refine ⟨by simp, ?_⟩
    intro c hc
    rcases List.mem_cons.1 hc with rfl | hc
    · decide
    · rw [List.eq_of_mem_replicate hc]; decide
  · cases this

theorem migInv_start (results : List Str) (s : Strategy) (name : Str) :
    MigStart migWorld migObj 2 "v1".toList migVer results [("d1".toList, migFun s name)] := by
  have hs : headState migInv = .ok [("d1".toList, ["a.tif".toList]), ("d2".toList, ["b.jpg".toList])] := by decide
  refine ⟨migInv_gapFree, by decide, ?_, exWorld_hex, by decide, by decide, by simp, by simp, ?_, ?_, ?_⟩
  · unfold OneDigestPerPath
    intro v ver hv
    have : (v, ver) ∈ [("v1".toList, migVer), ("v2".toList, migVer)] := hv
    simp only [List.mem_cons, List.not_mem_nil, or_false, Prod.mk.injEq] at this
    rcases this with ⟨_, rfl⟩ | ⟨_, rfl⟩ <;> decide
  · intro x hx
    rw [List.mem_singleton] at hx
    subst hx
    refine ⟨List.nodup_singleton "a.tif".toList, ?_⟩
    intro p hp
    have hp : p ∈ ["a.tif".toList] := hp
    exact (hasFile_head_decide migInv_gapFree.nodup hs p _).2 ⟨("d1".toList, ["a.tif".toList]), by simp, rfl, hp⟩
  · intro p d hp
    obtain ⟨e, he, _, h2⟩ := (hasFile_head_decide migInv_gapFree.nodup hs p d).1 hp
    have : ∀ e ∈ [("d1".toList, ["a.tif".toList]), ("d2".toList, ["b.jpg".toList])], ([] : Str) ∉ e.2 := by decide
    rintro rfl
    exact this e he h2
  · intro x _ t _ y hy
    cases hy
    rfl

theorem migInv_has : HasFile migInv migInv.head "a.tif".toList "d1".toList :=
  (hasFile_head_decide migInv_gapFree.nodup (by decide : headState migInv =
    .ok [("d1".toList, ["a.tif".toList]), ("d2".toList, ["b.jpg".toList])]) _ _).2 (by decide)

theorem migInv_paths {v q : Str} (h : HasPath migInv v q) : q = "a.tif".toList ∨ q = "b.jpg".toList := by
  obtain ⟨d, ver, ps, h1, h2, h3⟩ := h
  have hv : (v, ver) ∈ [("v1".toList, migVer), ("v2".toList, migVer)] := h1
  have hver : ver = migVer := by
    simp only [List.mem_cons, List.not_mem_nil, or_false, Prod.mk.injEq] at hv
    rcases hv with ⟨_, rfl⟩ | ⟨_, rfl⟩ <;> rfl
  subst hver
  have : (d, ps) ∈ [("d1".toList, ["a.tif".toList]), ("d2".toList, ["b.jpg".toList])] := h2
  simp only [List.mem_cons, List.not_mem_nil, or_false, Prod.mk.injEq] at this
  rcases this with ⟨_, rfl⟩ | ⟨_, rfl⟩
  · left; simpa using h3
  · right; simpa using h3

/-- a world where the content is not stored yet and is read from the source folder -/
def migSrcWorld : MigWorld := ⟨exWorld, .ok, fun _ => none, some (fun p => some [p.length.toUInt8])⟩

/-- the case of `C89_source`: a file is migrated from the source folder -/
example : ∃ src data data' ex, MigratedFrom migSrcWorld migObj.inv "d1".toList src data ∧
    (migFun .replace "a.jpg".toList).run data = some data' ∧ (objAddReader exWorld migObj ex "content".toList data').err = none := by
  have h : ∃ l ∈ (migrateOne migSrcWorld "v1".toList false migObj "d1".toList (migFun .replace "a.jpg".toList)).lines, l.failed = false := by decide
  obtain ⟨l, hl, hf⟩ := h
  exact ⟨l.source, C89_source hl hf⟩

/-- replacing `a.tif` by `a.jpg` -/
example : ¬ HasPath (migrateFiles migWorld "v1".toList [] [] migObj [("d1".toList, migFun .replace "a.jpg".toList)]).out.obj.inv
      "v2".toList "a.tif".toList ∧
    StillThere migWorld [] [("d1".toList, migFun .replace "a.jpg".toList)]
      (migrateFiles migWorld "v1".toList [] [] migObj [("d1".toList, migFun .replace "a.jpg".toList)]).out.obj.inv
      "a.tif".toList "d1".toList := by
  have hs := migInv_start [] .replace "a.jpg".toList
  have hc : NoClash migObj.inv migVer.state [] [("d1".toList, migFun .replace "a.jpg".toList)] := by
    refine ⟨?_, by simp, ?_⟩
    · intro x hx t ht v hp
      rw [List.mem_singleton] at hx
      subst hx
      have ht : t ∈ ["a.jpg".toList] := ht
      rw [List.mem_singleton] at ht
      subst ht
      rcases migInv_paths hp with h | h <;> revert h <;> decide
    · intro x hx h
      rw [List.mem_singleton] at hx
      subst hx
      cases h
  have hok : (migrateFiles migWorld "v1".toList [] [] migObj [("d1".toList, migFun .replace "a.jpg".toList)]).out.err = none := by
    decide
  refine ⟨?_, C89_nothing_lost_partial hs hc ?_ ?_ hok ?_⟩
  · rintro ⟨e, ver, ps, h1, h2, h3⟩
    revert h1 h2 h3
    have : ∀ v ∈ (migrateFiles migWorld "v1".toList [] [] migObj [("d1".toList, migFun .replace "a.jpg".toList)]).out.obj.inv.versions,
        v.1 = "v2".toList → ∀ x ∈ v.2.state, "a.tif".toList ∉ x.2 := by decide
    intro h1 h2 h3
    exact this _ h1 rfl _ h2 h3
  · intro x hx h
    rw [List.mem_singleton] at hx
    subst hx
    cases h
  · intro x hx h
    rw [List.mem_singleton] at hx
    subst hx
    exact absurd rfl h
  · exact migInv_has

theorem stillThere_decide {m : MigWorld} {results : List Str} {todo : List (Str × MigFun)} {inv : Inv} {p d : Str}
    (h : StillThere m results todo inv p d) (hr : ∀ x ∈ todo, x.1 = d → x.2.strategy ≠ .replace) :
    ∃ v ∈ inv.versions, v.1 = inv.head ∧ ∃ e ∈ v.2.state, e.1 = d ∧ ∃ q ∈ e.2, q ≠ [] := by
  rcases h with ⟨q, hq, ver, ps, h1, h2, h3⟩ | ⟨f, _, _, _, h1, h2, _⟩
  · exact ⟨_, h1, rfl, _, h2, rfl, q, h3, hq⟩
  · exact absurd h2 (hr _ h1 rfl)

/-- **C89 fails** if the name of the result is taken: `a.tif` is migrated to `b.jpg`, and the file `b.jpg` of the user
is gone from the version. -/
theorem C89_full_fails_clash : ¬ C89_full := by
  intro hf
  have hok : (migrateFiles migWorld "v1".toList [] [] migObj [("d1".toList, migFun .replace "b.jpg".toList)]).out.err = none := by
    decide
  have h := hf migWorld migObj 2 "v1".toList migVer [] [] _ (migInv_start [] .replace "b.jpg".toList) hok "b.jpg".toList
    "d2".toList ((hasFile_head_decide migInv_gapFree.nodup (by decide : headState migInv =
      .ok [("d1".toList, ["a.tif".toList]), ("d2".toList, ["b.jpg".toList])]) _ _).2 (by decide))
  have := stillThere_decide h (by
    intro x hx he
    rw [List.mem_singleton] at hx
    subst hx
    exact absurd he (by decide))
  exact absurd this (by decide)

/-- **C89 fails** if the pattern does not change the name: with the strategy `add` the result takes the place of the
original. -/
theorem C89_full_fails_same_name : ¬ C89_full := by
  intro hf
  have hok : (migrateFiles migWorld "v1".toList [] [] migObj [("d1".toList, migFun .add "a.tif".toList)]).out.err = none := by
    decide
  have hs := migInv_start [] .add "a.tif".toList
  have h := hf migWorld migObj 2 "v1".toList migVer [] [] _ hs hok "a.tif".toList "d1".toList
    migInv_has
  have := stillThere_decide h (by
    intro x hx _
    rw [List.mem_singleton] at hx
    subst hx
    intro h
    cases h)
  exact absurd this (by decide)

/-- **C89 fails** for a result of a migration that is migrated again with the strategy `folder`: the original is left
under the empty name. -/
theorem C89_full_fails_again : ¬ C89_full := by
  intro hf
  have hok : (migrateFiles migWorld "v1".toList ["d1".toList] [] migObj [("d1".toList, migFun .folder [])]).out.err = none := by
    decide
  have hs := migInv_start ["d1".toList] .folder []
  have h := hf migWorld migObj 2 "v1".toList migVer ["d1".toList] [] _ hs hok "a.tif".toList "d1".toList
    migInv_has
  have := stillThere_decide h (by
    intro x hx _
    rw [List.mem_singleton] at hx
    subst hx
    intro h
    cases h)
  exact absurd this (by decide)

end Gocfl
