import Verif.Props.Damage
import Verif.Props.Life

/-! # C196: which files of an object can be lost without notice -/

namespace Gocfl

/-- what is left of a folder when the files `lost` are gone -/
def without (fs : FS) (lost : Str → Bool) : FS := fs.filter (fun e => !lost e.1)

theorem mget_without (fs : FS) (lost : Str → Bool) (x : Str) : mget (without fs lost) x = if lost x then none else mget fs x := by
  unfold without
  induction fs with
  | nil => simp [mget]
  | cons e fs ih =>
    obtain ⟨k, b⟩ := e
    rw [List.filter_cons]
    by_cases hk : k = x
    · subst hk
      by_cases hl : lost k = true
      · simp only [hl, Bool.not_true, Bool.false_eq_true, if_false, if_true] at ih ⊢
        exact ih
      · simp [hl, mget]
    · by_cases hl : lost k = true
      · simp only [hl, Bool.not_true, Bool.false_eq_true, if_false, mget, if_neg hk]
        exact ih
      · simp only [hl, Bool.not_false, if_true, mget, if_neg hk]
        exact ih

theorem without_some {fs : FS} {lost : Str → Bool} {x : Str} {b : Bytes} :
    mget (without fs lost) x = some b ↔ lost x = false ∧ mget fs x = some b := by
  rw [mget_without]
  cases lost x <;> simp

theorem without_subFS (fs : FS) (lost : Str → Bool) (folder : Str) :
    subFS (without fs lost) folder = without (subFS fs folder) (fun x => lost (under folder x)) := by
  unfold subFS without
  induction fs with
  | nil => rfl
  | cons e fs ih =>
    rw [List.filter_cons, List.filterMap_cons]
    cases hs : stripFolder folder e.1 with
    | none =>
      simp only [Option.map_none]
      by_cases hl : lost e.1 = true
      · simp only [hl, Bool.not_true, Bool.false_eq_true, if_false]; exact ih
      · simp only [hl, Bool.not_false, if_true]
        rw [List.filterMap_cons, hs]
        exact ih
    | some q =>
      have he := stripFolder_eq_some.1 hs
      simp only [Option.map_some]
      rw [List.filter_cons]
      simp only [← he]
      by_cases hl : lost e.1 = true
      · simp only [hl, Bool.not_true, Bool.false_eq_true, if_false]; exact ih
      · simp only [hl, Bool.not_false, if_true]
        rw [List.filterMap_cons, hs]
        simp only [Option.map_some]
        rw [ih]

/-- The file `k` of an object with the root inventory `r` may be missing. -/
structure Expendable (w : World) (fs : FS) (r : RawInv) (k : Str) : Prop where
  declaration : ∀ num, IsVersionNum num → k ≠ declName num
  inventory : k ≠ "inventory.json".toList
  sidecar : k ≠ "inventory.json.sha512".toList
  versionInventory : ∀ v ∈ mkeys r.inv.versions, k ≠ v ++ "/inventory.json".toList
  versionSidecar : ∀ v ∈ mkeys r.inv.versions, k ≠ v ++ "/inventory.json.sha512".toList
  listed : ¬ ListedIn r.inv k
  versionListed : ∀ v ∈ mkeys r.inv.versions, ∀ i, InvAt w (subFS fs v) i → ¬ ListedIn i.inv k

theorem topFiles_without (fs : FS) (lost : Str → Bool) : topFiles (without fs lost) = (topFiles fs).filter (fun e => !lost e.name) := by
  unfold topFiles without
  induction fs with
  | nil => rfl
  | cons e fs ih =>
    rw [List.filter_cons, List.filterMap_cons]
    by_cases hs : '/' ∈ e.1 <;> by_cases hl : lost e.1 = true <;>
      simp [hs, hl] <;> simpa using ih

theorem declFiles_filter (pre : Str) (p : DirEnt → Bool) (es : List DirEnt) :
    declFiles pre (es.filter p) = (declFiles pre es).filter (fun x => p x.1) := by
  induction es with
  | nil => rfl
  | cons e es ih =>
    rw [List.filter_cons, declFiles_cons, List.filter_append, ← ih]
    cases hp : p e
    · simp only [Bool.false_eq_true, if_false]
      cases e.isDir
      · cases declFind pre e.name <;> simp [hp]
      · simp
    · simp only [if_true]
      rw [declFiles_cons]
      cases e.isDir
      · cases declFind pre e.name <;> simp [hp]
      · simp

/-- a folder is still recognised if and only if the declaration is not among the lost files -/
theorem declared_without {fs : FS} {lost : Str → Bool} {v : Str} (hv : getVersion objDecl (topFiles fs) = .version v)
    (hn : ∀ n b, mget fs n = some b → '/' ∉ n → MatchedName n) :
    (∃ v', getVersion objDecl (topFiles (without fs lost)) = .version v') ↔
      ∀ num, IsVersionNum num → mget fs (declName num) ≠ none → lost (declName num) = false := by
  obtain ⟨e, he, hc⟩ := getVersion_version hv
  obtain ⟨h1, _, h3⟩ := mem_declFiles.1 (show (e, v) ∈ declFiles objDecl (topFiles fs) by rw [he]; simp)
  obtain ⟨n, b, hnb, hns, rfl⟩ := mem_topFiles.1 h1
  obtain ⟨b1, hb1⟩ := Option.ne_none_iff_exists'.1 (fun hc => mget_eq_none_iff.1 hc (mem_mkeys_of_mem hnb))
  obtain ⟨hnum, hname⟩ := (declFind_tidy (matched_tidy (hn n b1 hb1 hns)) v).1 h3
  have hd : declFiles objDecl (topFiles (without fs lost)) = if lost n then [] else [(⟨n, false, some (bytesStr b)⟩, v)] := by
    rw [topFiles_without, declFiles_filter, he]
    cases hl : lost n <;> simp [hl]
  constructor
  · rintro ⟨v', hv'⟩ num hn' hth
    obtain ⟨e', he', _⟩ := getVersion_version hv'
    rw [hd] at he'
    obtain ⟨b2, hb2⟩ := Option.ne_none_iff_exists'.1 hth
    have m2 : ((⟨declName num, false, some (bytesStr b2)⟩ : DirEnt), num) ∈ declFiles objDecl (topFiles fs) :=
      mem_declFiles.2 ⟨mem_topFiles.2 ⟨_, b2, mem_of_mget hb2, declName_slash hn', rfl⟩, rfl, declFind_exact hn'⟩
    rw [he, List.mem_singleton] at m2
    have hk : declName num = n := by simpa using congrArg (fun x => x.1.name) m2
    rw [hk]
    cases hl : lost n
    · rfl
    · rw [hl] at he'; cases he'
  · intro h
    have hl : lost n = false := by
      have := h v hnum (by rw [show declName v = n from hname.symm, hb1]; simp)
      rwa [show declName v = n from hname.symm] at this
    refine ⟨v, ?_⟩
    rw [getVersion_eq, hd, hl]
    have hc : some (bytesStr b) = some (objDecl ++ v ++ "\n".toList) ∨ some (bytesStr b) = some (objDecl ++ v ++ "\r\n".toList) := hc
    simp only [Option.some.injEq] at hc
    simp only [Bool.false_eq_true, if_false]
    rw [if_neg (by rintro ⟨h1, h2⟩; rcases hc with h | h; exacts [h1 h, h2 h]), if_pos trivial]

theorem part_without {w : World} {fs : FS} {lost : Str → Bool} {root i : Inv} (hl : ∀ c b, lost c = true → mget fs c = some b → ¬ ListedIn i c)
    (hf : FilesForDigests i) (P : PartAccepted w fs root i) : PartAccepted w (without fs lost) root i := by
  have hF : ∀ {a d c}, ListedIn i c → FileOf w fs (mkeys root.versions) a d c → FileOf w (without fs lost) (mkeys root.versions) a d c := by
    rintro a d c hc ⟨v, q, b, hash, hvk, rfl, hb, h1, h2⟩
    refine ⟨v, q, b, hash, hvk, rfl, without_some.2 ⟨?_, hb⟩, h1, h2⟩
    cases h : lost (v ++ '/' :: q)
    · rfl
    · exact absurd hc (hl _ b h hb)
  have hcont : ∀ d m c, (d, m) ∈ i.manifest → c ∈ m → FileOf w (without fs lost) (mkeys root.versions) i.digestAlg d c := fun d m c h hc =>
    hF (.inl ⟨d, m, h, hc⟩) (P.content d m c h hc)
  have hfix : ∀ a mm d m c, (a, mm) ∈ i.fixity → (d, m) ∈ mm → c ∈ m → FileOf w (without fs lost) (mkeys root.versions) a d c :=
    fun a mm d m c h h' hc => hF (.inr ⟨a, mm, d, m, h, h', hc⟩) (P.fixity a mm d m c h h' hc)
  refine ⟨P.placed, ?_, hcont, P.fixityAlgs, ?_, hfix, fun v t b h1 h2 hb => P.listed v t b h1 h2 (without_some.1 hb).2⟩
  · intro d m h
    obtain ⟨c, hc⟩ := List.exists_mem_of_ne_nil _ (hf.1 d m h)
    exact ⟨c, hcont d m c h hc⟩
  · intro a mm d m h h'
    obtain ⟨c, hc⟩ := List.exists_mem_of_ne_nil _ (hf.2 a mm d m h h')
    exact ⟨c, hfix a mm d m c h h' hc⟩

theorem part_kept {w : World} {fs : FS} {lost : Str → Bool} {root i : Inv} {k : Str} (P : PartAccepted w (without fs lost) root i)
    (h : ListedIn i k) : lost k = false := by
  rcases h with ⟨d, m, hm, hk⟩ | ⟨a, mm, d, m, hmm, hm, hk⟩
  · obtain ⟨_, _, _, _, _, _, hb, _⟩ := P.content d m k hm hk
    exact (without_some.1 hb).1
  · obtain ⟨_, _, _, _, _, _, hb, _⟩ := P.fixity a mm d m k hmm hm hk
    exact (without_some.1 hb).1

/-- Files that may be missing leave an object that validates. -/
theorem expendable_accepted {w : World} {fs : FS} {r : RawInv} {lost : Str → Bool} (O : ObjAccepted w false fs r) (hf : FilesForDigests r.inv)
    (hfv : ∀ v ∈ mkeys r.inv.versions, ∀ i, InvAt w (subFS fs v) i → FilesForDigests i.inv)
    (H : ∀ k b, lost k = true → mget fs k = some b → Expendable w fs r k) : ObjAccepted w false (without fs lost) r := by
  obtain ⟨pn, N, hN0, hpN, hhead⟩ := O.root.2.names
  have hkeep : ∀ {x}, (∀ b, mget fs x = some b → ¬ Expendable w fs r x) → mget (without fs lost) x = mget fs x := by
    intro x hx
    rw [mget_without]
    cases hl : lost x
    · rfl
    · cases hb : mget fs x with
      | none => rfl
      | some b => exact absurd (H x b hl hb) (hx b hb)
  have hroot : ∀ i, InvAt w fs i ↔ InvAt w (without fs lost) i := by
    refine fun i => invAt_iff (hkeep fun b _ E => E.inventory rfl) (fun b hash _ _ => ?_) i
    rw [hkeep (x := rootSidecarPath "sha512".toList) fun b _ E => E.sidecar rfl]
  have hvinv : ∀ v ∈ mkeys r.inv.versions, mget (without fs lost) (v ++ "/inventory.json".toList) = mget fs (v ++ "/inventory.json".toList) :=
    fun v hv => hkeep fun b _ E => E.versionInventory v hv rfl
  have hsub : ∀ v ∈ mkeys r.inv.versions, ∀ i, InvAt w (subFS fs v) i ↔ InvAt w (subFS (without fs lost) v) i := by
    intro v hv i
    refine invAt_iff (by rw [mget_subFS, mget_subFS]; exact hvinv v hv) (fun b hash _ _ => ?_) i
    rw [mget_subFS, mget_subFS, under_side, hkeep fun b _ E => E.versionSidecar v hv rfl]
  obtain ⟨v0, hv0⟩ := O.declared
  refine ⟨(declared_without hv0 O.files).2 ?_, (hroot r).1 O.root, ?_, ?_, ?_, ?_, ?_,
    part_without (fun c b hl hb => (H c b hl hb).listed) hf O.part, ?_, ?_, ?_, ?_, ?_, ?_⟩
  · intro num hn hth
    obtain ⟨b, hb⟩ := Option.ne_none_iff_exists'.1 hth
    cases hl : lost (declName num)
    · rfl
    · exact absurd rfl ((H _ b hl hb).declaration num hn)
  · intro n y hy hn
    exact O.files n y (without_some.1 hy).2 hn
  · intro d q y hy hd
    exact O.dirs d q y (without_some.1 hy).2 hd
  · intro v hv
    obtain ⟨b, hb⟩ := Option.ne_none_iff_exists'.1 (O.inventory v hv (.inl rfl))
    exact ⟨"inventory.json".toList, b, (hvinv v hv).trans hb⟩
  · intro v n y hv hy hn
    exact O.versionFiles v n y hv (without_some.1 hy).2 hn
  · intro _ v hv
    obtain ⟨t, y, hy⟩ := O.content rfl v hv
    refine ⟨t, y, without_some.2 ⟨?_, hy⟩⟩
    cases hl : lost (v ++ '/' :: r.inv.contentDir ++ t)
    · rfl
    · obtain ⟨d, m, hm, hc⟩ := O.part.listed v t y hv hv hy
      exact absurd (.inl ⟨d, m, hm, hc⟩) (H _ y hl hy).listed
  · intro a ha
    exact (O.fixityAlgs a ha).imp_right (fun ⟨v, i, hvk, hi, h⟩ => ⟨v, i, hvk, (hsub v hvk i).1 hi, h⟩)
  · intro v hv hor
    rw [hvinv v hv]; exact O.inventory v hv hor
  · intro v hv hne
    obtain ⟨i, hi, V⟩ := O.versions v hv (by rw [← hvinv v hv]; exact hne)
    exact ⟨i, (hsub v hv i).1 hi, V.id, V.head, V.known, V.agree,
      part_without (fun c b hl hb => (H c b hl hb).versionListed v hv i hi) (hfv v hv i hi) V.part,
      fun n y hy hn => V.files n y (without_some.1 hy).2 hn⟩
  · intro u v i j hu hv h1 hi hj
    exact O.contentDirectory u v i j hu hv h1 ((hsub u hu i).2 hi) ((hsub v hv j).2 hj)
  · intro u v i j n hu hv h1 h2 hi hj
    exact O.specs u v i j n hu hv h1 h2 ((hsub u hu i).2 hi) ((hsub v hv j).2 hj)
  · intro i hi
    exact O.last i ((hsub _ (by rw [hhead]; exact names_last hpN hN0) i).2 hi)

/-- **C196.** Whatever files of a valid object are lost: if it still validates, each of them may be missing. -/
theorem C196_noticed {w : World} {fs : FS} {r : RawInv} {lost : Str → Bool} (O : ObjAccepted w false fs r)
    (h : ∃ r', ObjAccepted w false (without fs lost) r') : ∀ k b, lost k = true → mget fs k = some b → Expendable w fs r k := by
  obtain ⟨r', O'⟩ := h
  intro k b hl hb
  have hsome : ∀ {x}, mget (without fs lost) x ≠ none → lost x = false ∧ mget (without fs lost) x = mget fs x := by
    intro x hx
    obtain ⟨c, hc⟩ := Option.ne_none_iff_exists'.1 hx
    have := without_some.1 hc
    exact ⟨this.1, hc.trans this.2.symm⟩
  have hpair : ∀ {fs1 : FS} {i : RawInv}, InvAt w fs1 i → mget fs1 rootInvPath ≠ none ∧ mget fs1 (rootSidecarPath "sha512".toList) ≠ none := by
    rintro fs1 i ⟨⟨c, sb, hash, h1, _, _, h4, _⟩, C⟩
    rw [C.alg] at h4
    exact ⟨by rw [h1]; simp, by rw [h4]; simp⟩
  obtain ⟨hi, hs⟩ := hpair O'.root
  obtain rfl := invAt_unique O.root O'.root (hsome hi).2
  have hv : ∀ v ∈ mkeys r'.inv.versions, lost (v ++ "/inventory.json".toList) = false ∧ lost (v ++ "/inventory.json.sha512".toList) = false ∧
      ∀ i, InvAt w (subFS fs v) i → PartAccepted w (without fs lost) r'.inv i.inv := by
    intro v hv
    obtain ⟨j, hj, V⟩ := O'.versions v hv (O'.inventory v hv (.inl rfl))
    obtain ⟨h1, h2⟩ := hpair hj
    rw [mget_subFS, under_inv] at h1
    rw [mget_subFS, under_side] at h2
    refine ⟨(hsome h1).1, (hsome h2).1, fun i hi => ?_⟩
    obtain rfl := invAt_unique hi hj (by rw [mget_subFS, mget_subFS, under_inv]; exact (hsome h1).2)
    exact V.part
  have hno : ∀ {x}, lost x = false → k ≠ x := fun h hc => by rw [← hc, hl] at h; cases h
  obtain ⟨v0, hv0⟩ := O.declared
  refine ⟨fun num hn hk => ?_, hno (hsome hi).1, hno (hsome hs).1, fun v hm => hno (hv v hm).1, fun v hm => hno (hv v hm).2.1,
    fun h => hno (part_kept O'.part h) rfl, fun v hm i hi h => hno (part_kept ((hv v hm).2.2 i hi) h) rfl⟩
  exact hno ((declared_without hv0 O.files).1 O'.declared num hn (by rw [← hk, hb]; simp)) hk

/-- **C196.** Any number of files of a valid object is lost: it still validates if and only if each of them may be missing.  So
there is no second loss that hides a first. -/
theorem C196_loss_iff {w : World} {fs : FS} {r : RawInv} {lost : Str → Bool} (O : ObjAccepted w false fs r) (hf : FilesForDigests r.inv)
    (hfv : ∀ v ∈ mkeys r.inv.versions, ∀ i, InvAt w (subFS fs v) i → FilesForDigests i.inv) :
    (∃ r', ObjAccepted w false (without fs lost) r') ↔ ∀ k b, lost k = true → mget fs k = some b → Expendable w fs r k :=
  ⟨C196_noticed O, fun H => ⟨r, expendable_accepted O hf hfv H⟩⟩

/-- **C196.** Where such a file is: in `logs` or `extensions`, in a folder of a version that is not its content directory, or
beside the root inventory as a sidecar of another algorithm, or the like. -/
theorem C196_where {w : World} {fs : FS} {r : RawInv} {k : Str} {b : Bytes} (O : ObjAccepted w false fs r) (hb : mget fs k = some b)
    (E : Expendable w fs r k) :
    (∃ q, k = "logs/".toList ++ q ∨ k = "extensions/".toList ++ q) ∨
    (∃ v q x, v ∈ mkeys r.inv.versions ∧ k = v ++ '/' :: (q ++ '/' :: x) ∧ ¬ (r.inv.contentDir <+: q ++ '/' :: x)) ∨
    ∃ (c : Char) (x : Str), c ≠ '\n' ∧ x ∈ ["".toList, ".sha512".toList, ".sha384".toList, ".sha256".toList, ".sha1".toList, ".md5".toList] ∧
      k = "inventory".toList ++ c :: ("json".toList ++ x) ∧ ¬ (c = '.' ∧ (x = [] ∨ x = ".sha512".toList)) := by
  by_cases hs : '/' ∈ k
  · obtain ⟨d, q, rfl, hd⟩ := List.eq_append_cons_of_mem hs
    rcases O.dirs d q b hb hd with h | rfl | rfl
    · right; left
      by_cases hq : '/' ∈ q
      · obtain ⟨q1, x, rfl, _⟩ := List.eq_append_cons_of_mem hq
        refine ⟨d, q1, x, h, rfl, ?_⟩
        rintro ⟨t, ht⟩
        have hb' : mget fs (d ++ '/' :: r.inv.contentDir ++ t) = some b := by rw [← hb, ← ht]; simp
        obtain ⟨dg, m, hm, hc⟩ := O.part.listed d t b h h hb'
        refine E.listed (.inl ⟨dg, m, hm, ?_⟩)
        rw [← ht]; simpa using hc
      · obtain ⟨i, _, V⟩ := O.versions d h (O.inventory d h (.inl rfl))
        rcases V.files q b hb hq with rfl | rfl
        · exact absurd rfl (E.versionInventory d h)
        · exact absurd rfl (E.versionSidecar d h)
    · exact .inl ⟨q, .inl rfl⟩
    · exact .inl ⟨q, .inr rfl⟩
  · rcases O.files k b hb hs with ⟨c, x, h1, h2, h3⟩ | ⟨num, hn, h⟩
    · refine .inr (.inr ⟨c, x, h1, h2, h3, ?_⟩)
      rintro ⟨rfl, rfl | rfl⟩
      · exact E.inventory h3
      · exact E.sidecar h3
    · exact absurd h (E.declaration num hn)

/-- **C196.** As validation shows it. -/
theorem C196_checked {w : World} {env env' : Env} {blank blank' : Inv} {fs : FS} {folder : Str} {lost : Str → Bool} (hlow : LowerHash w)
    (h : ∃ F, checkFolder w env false blank fs folder = .ok F ∧ NoErrors F) :
    ∃ r, ObjAccepted w false (subFS fs folder) r ∧ (FilesForDigests r.inv →
      (∀ v ∈ mkeys r.inv.versions, ∀ i, InvAt w (subFS (subFS fs folder) v) i → FilesForDigests i.inv) →
      ((∃ F', checkFolder w env' false blank' (without fs lost) folder = .ok F' ∧ NoErrors F') ↔
        ∀ k b, lost (under folder k) = true → mget fs (under folder k) = some b → Expendable w (subFS fs folder) r k)) := by
  obtain ⟨r, O⟩ := (C184_accepted_iff hlow).1 h
  refine ⟨r, O, fun hf hfv => ?_⟩
  rw [C184_accepted_iff hlow, without_subFS, C196_loss_iff O hf hfv]
  simp only [mget_subFS]

/-! ## Objects the tool wrote -/

/-- Of a valid object without anything that OCFL does not foresee nothing may be missing outside `logs` and `extensions`. -/
theorem expendable_valid {w : World} {fs : FS} {p N : Nat} {r r' : RawInv} {k : Str} {b : Bytes} (V : ValidObject w fs p N r)
    (O : ObjAccepted w false fs r') (hb : mget fs k = some b) (E : Expendable w fs r' k) : Ignored k := by
  have hr : r' = r := by
    obtain ⟨⟨c, _, _, hc, hd, _⟩, _⟩ := O.root
    obtain ⟨c', _, _, hc', hd', _⟩ := V.stored
    rw [hc] at hc'; cases hc'
    rw [hd] at hd'; cases hd'; rfl
  subst hr
  have halg := O.root.2.alg
  by_cases hs : '/' ∈ k
  · obtain ⟨d, q, rfl, hd⟩ := List.eq_append_cons_of_mem hs
    rcases V.dirs d q b hb hd with h | rfl | rfl
    · exfalso
      obtain ⟨⟨v, ver⟩, hv, rfl⟩ := List.mem_map.1 h
      rcases V.versionFiles v ver q b hv hb with rfl | rfl | ⟨t, rfl⟩
      · exact E.versionInventory v h rfl
      · rw [halg] at E
        exact E.versionSidecar v h rfl
      · have hb' : mget fs (v ++ '/' :: r'.inv.contentDir ++ '/' :: t) = some b := by rw [← hb]; simp
        obtain ⟨dg, m, hm, hc⟩ := V.files.complete v ver t b hv hb'
        exact E.listed (.inl ⟨dg, m, hm, by simpa using hc⟩)
    · exact ⟨q, .inl rfl⟩
    · exact ⟨q, .inr rfl⟩
  · exfalso
    obtain ⟨num, hn, _, hx⟩ := V.decl
    rcases hx k b hb hs with rfl | rfl | rfl
    · exact E.declaration num hn rfl
    · exact E.inventory rfl
    · rw [halg] at E
      exact E.sidecar rfl

theorem without_ignored {fs : FS} {lost : Str → Bool} (h : ∀ k b, (k, b) ∈ fs → lost k = true → Ignored k) : SameButIgnored fs (without fs lost) := by
  refine ⟨?_, fun k hk => ?_⟩
  · rw [topFiles_without, List.filter_eq_self.2]
    intro e he
    obtain ⟨n, b, hnb, hns, rfl⟩ := mem_topFiles.1 he
    cases hl : lost n
    · simp
    · exact absurd (h n b hnb hl) (not_ignored_top hns)
  · rw [mget_without]
    cases hl : lost k
    · rfl
    · cases hb : mget fs k with
      | none => rfl
      | some b => exact absurd (h k b (mem_of_mget hb) hl) hk

/-- **C196.** An object the tool created and changed, and that validates: when files of it are lost, it still validates if and
only if all of them were in `logs` or `extensions`. -/
theorem C196_own {w : World} (hc : Codec w) (hx : HexHash w) (hL : LowerHash w)
    (ht : ∀ t, w.time (w.time t) = w.time t) {env env' : Env} {a : CreateArgs} {id : Str} (hg : GoodArgs a id) {fs : FS} {N : Nat}
    {inv : Inv} (h : Life w env a id fs N inv) (hN : 0 < N) {blank blank' : Inv} {root : FS} {folder : Str} {lost : Str → Bool}
    (hf : subFS root folder = fs) (hv : ∃ F, checkFolder w env false blank root folder = .ok F ∧ NoErrors F) :
    (∃ F', checkFolder w env' false blank' (without root lost) folder = .ok F' ∧ NoErrors F') ↔
      ∀ k b, mget fs k = some b → lost (under folder k) = true → Ignored k := by
  subst hf
  obtain ⟨r, V, _⟩ := C80_life_valid hc hx hL ht hg h hN
  obtain ⟨r', O⟩ := (C184_accepted_iff hL).1 hv
  constructor
  · intro h' k b hb hl
    rw [C184_accepted_iff hL, without_subFS] at h'
    exact expendable_valid V O hb (C196_noticed O h' k b hl hb)
  · intro hi
    refine (C184_ignored hL ?_).1 hv
    rw [without_subFS]
    refine without_ignored (fun k b hb hl => ?_)
    obtain ⟨c, hc⟩ := Option.ne_none_iff_exists'.1 (fun hc => mget_eq_none_iff.1 hc (mem_mkeys_of_mem hb))
    exact hi k c hc hl

/-! ## Examples -/

theorem lifeRoot_checked (env : Env) (blank : Inv) :
    ∃ F, checkFolder exKeep env false blank (lifeRoot exSecond) "o".toList = .ok F ∧ NoErrors F :=
  (C80_life_accepted_iff (codecWorld_codec _) (codecWorld_hex _) exKeep_lower (fun _ => rfl) exArgs_good
    (lifeRoot_life env exSecond_clean) (by decide) rfl).2 ⟨rfl, by unfold GoodName; decide, by
      intro v ver hv
      have h : ∀ e ∈ (nextInv lifeInv1 exSecond).versions, ∃ m ∈ (nextInv lifeInv1 exSecond).manifest, ∃ x ∈ m.2,
          hasPrefix x ((e.1 ++ '/' :: (nextInv lifeInv1 exSecond).contentDir) ++ "/".toList) = true := by decide
      obtain ⟨⟨d, m⟩, hm, x, hx, hp⟩ := h (v, ver) hv
      obtain ⟨q, rfl⟩ := pfx_iff.1 hp
      exact ⟨d, m, q, hm, hx⟩⟩

/-- the object of two versions of C80's example: the inventory of the first version is lost -/
example (env : Env) (blank : Inv) : ¬ ∃ F, checkFolder exKeep env false blank
    (without (lifeRoot exSecond) (fun k => k == "o/v1/inventory.json".toList)) "o".toList = .ok F ∧ NoErrors F := by
  intro h'
  have L := lifeRoot_life env exSecond_clean
  have A := life_alive (codecWorld_codec _) (codecWorld_hex _) exKeep_lower (fun _ => rfl) exArgs_good L
  obtain ⟨b, hb⟩ := Option.ne_none_iff_exists'.1 (A.inventories 1 (by decide) (by decide))
  exact not_ignored_under (d := "v1".toList) (q := "inventory.json".toList) (by decide) (by decide) (by decide)
    ((C196_own (codecWorld_codec _) (codecWorld_hex _) exKeep_lower (fun _ => rfl) exArgs_good L (by decide) rfl (lifeRoot_checked env blank)).1 h'
      "v1/inventory.json".toList b hb (by decide))

/-- the same object without its extensions is as valid as before -/
example (env : Env) (blank : Inv) : ∃ F, checkFolder exKeep env false blank
    (without (lifeRoot exSecond) (fun k => hasPrefix k "o/extensions/".toList)) "o".toList = .ok F ∧ NoErrors F := by
  refine (C196_own (codecWorld_codec _) (codecWorld_hex _) exKeep_lower (fun _ => rfl) exArgs_good (lifeRoot_life env exSecond_clean) (by decide) rfl
    (lifeRoot_checked env blank)).2 (fun k b _ hl => ?_)
  obtain ⟨q, hq⟩ := pfx_iff (a := "o/extensions".toList).1 hl
  exact ⟨q, .inr (List.append_cancel_left (as := "o/".toList) hq)⟩

/-- the object of C75's example with a sidecar of another algorithm, which may be lost … -/
example : ∃ F, checkFolder ockWorld exEnv false ockInv (without (dmgFS "inventory.json.md5".toList [1]) (fun k => k == "o/inventory.json.md5".toList)) "o".toList =
    .ok F ∧ NoErrors F := checked_of (by decide)

/-- … while the content file may not -/
example : ¬ ∃ F, checkFolder ockWorld exEnv false ockInv (without ockFS (fun k => k == "o/v1/content/a".toList)) "o".toList = .ok F ∧ NoErrors F := by
  intro h
  obtain ⟨r, O⟩ := (C184_accepted_iff ock_lower).1 (⟨[], ock_accepted, by simp [NoErrors]⟩ : ∃ F, checkFolder ockWorld exEnv false ockInv ockFS "o".toList = .ok F ∧ NoErrors F)
  rw [C184_accepted_iff ock_lower, without_subFS] at h
  have E := C196_noticed O h "v1/content/a".toList [1] (by decide) (by decide)
  have hr : r.inv = ockInv := by
    obtain ⟨⟨b, _, _, hb, hd, _⟩, _⟩ := O.root
    rw [show mget (subFS ockFS "o".toList) rootInvPath = some [9] by decide] at hb
    cases hb
    have : ockWorld.dec [9] = some { inv := ockInv, vmeta := [] } := rfl
    rw [this] at hd; cases hd; rfl
  refine E.listed (.inl ?_)
  rw [hr]
  exact ⟨"d1".toList, ["v1/content/a".toList], by simp [ockInv], by simp⟩

end Gocfl
