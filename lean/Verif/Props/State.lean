import Verif.Props.Content
import Verif.Model.Echo

/-!
# Properties of the logical content of an object, continued (C09–C11, C14–C17, C19)
-/

namespace Gocfl

/-! ## C09 -/

/-- **C09, full statement** (false): whatever operations are executed, every version lists every
logical path at most once. -/
def C09_full : Prop :=
  ∀ (inv inv' : Inv) (n : Nat) (ops : List Op), GapFree inv n → MapKeysOk inv →
    OneDigestPerPath inv → run inv ops = .ok inv' → OneDigestPerPath inv'

/-- The operations which keep paths unique: a recorded file has a digest, a copy does not go to a
path that is in the head with other content, a rename does not go to an occupied path. -/
def KeepsUnique (inv : Inv) : Op → Prop
  | .add _ _ cs => ∀ dig, mget cs inv.digestAlg = some dig → dig ≠ []
  | .copy dest d => ∀ d', HasFile inv inv.head dest d' → d' = d
  | .rename a b => a = b ∨ ¬ HasPath inv inv.head a ∨ ¬ HasPath inv inv.head b
  | _ => True

theorem nodup_map_rename {l : List Str} (h : l.Nodup) {a b : Str} (hb : a = b ∨ a ∉ l ∨ b ∉ l) :
    (l.map (fun q => if q = a then b else q)).Nodup := by
  by_cases hab : a = b
  · subst hab
    have : l.map (fun q => if q = a then a else q) = l := by
      rw [List.map_congr_left (g := id) (by intro x _; simp; intro h; exact h.symm), List.map_id]
    rw [this]; exact h
  · by_cases ha : a ∈ l
    · have hbl : b ∉ l := by
        rcases hb with h | h | h
        · exact absurd h hab
        · exact absurd ha h
        · exact h
      refine List.Nodup.map_on ?_ h
      intro x hx y hy hxy
      by_cases h1 : x = a <;> by_cases h2 : y = a
      · rw [h1, h2]
      · rw [if_pos h1, if_neg h2] at hxy; subst hxy; exact absurd hy hbl
      · rw [if_neg h1, if_pos h2] at hxy; subst hxy; exact absurd hx hbl
      · rwa [if_neg h1, if_neg h2] at hxy
    · have : l.map (fun q => if q = a then b else q) = l := by
        rw [List.map_congr_left (g := id) (by
          intro x hx; show (if x = a then b else x) = x
          rw [if_neg]; rintro rfl; exact ha hx), List.map_id]
      rw [this]; exact h

theorem mem_statePaths_head {inv : Inv} (hn : (mkeys inv.versions).Nodup) {s : DMap}
    (hs : headState inv = .ok s) {p : Str} : p ∈ statePaths s ↔ HasPath inv inv.head p := by
  rw [mem_statePaths]; unfold HasPath
  simp only [hasFile_head hn hs]

theorem newVersion_states {P : DMap → Prop} {inv inv' : Inv} {n : Nat} (hg : GapFree inv n)
    (hk : MapKeysOk inv) {m u a t : Str} (hP : StatesOk P inv) (h0 : P [])
    (h : newVersion inv m u a t = .ok inv') : StatesOk P inv' := by
  obtain ⟨s, hs0, hs1, he⟩ := newVersion_gapFree hg hk m u a t
  rw [he] at h; cases h
  intro v ver hm
  rcases List.mem_append.1 hm with hm | hm
  · exact hP v ver hm
  · simp only [List.mem_singleton, Prod.mk.injEq] at hm
    obtain ⟨_, rfl⟩ := hm
    show P s
    by_cases hn : n = 0
    · rw [hs0 hn]; exact h0
    · obtain ⟨old, hold⟩ := hg.head_version (Nat.pos_of_ne_zero hn)
      rw [hs1 old hold]; exact hP _ _ (mem_of_mget hold)

theorem echoDelete_ok {inv inv' : Inv} {ex : List Str} {pre : Str}
    (h : echoDelete inv ex pre = .ok inv') : ∃ s, headState inv = .ok s ∧
      ((statePaths s).filter (fun f => hasPrefix f pre && !(bsearch ex f).2)).foldlM
        (fun i f => deleteFile i f) inv = .ok inv' := by
  unfold echoDelete at h
  split at h
  · cases h
  · rename_i v hv
    exact ⟨v.state, headState_eq_ok.2 ⟨v, hv, rfl⟩, h⟩

theorem pos_of_headState {inv : Inv} {n : Nat} (hg : GapFree inv n) {s : DMap}
    (hs : headState inv = .ok s) : 0 < n := by
  obtain ⟨v, hv, _⟩ := headState_eq_ok.1 hs
  obtain ⟨k, h1, h2, _⟩ := hg.mem_keys.1 (mem_mkeys_of_mem (mem_of_mget hv))
  omega

theorem step_oneDigest {inv inv' : Inv} {op : Op} {n : Nat} (hw : WF inv n)
    (ho : OneDigestPerPath inv) (hq : KeepsUnique inv op) (h : step inv op = .ok inv') :
    OneDigestPerPath inv' := by
  have hn := hw.1.nodup
  cases op with
  | newVersion m u a t =>
    exact newVersion_states (P := fun s => (statePaths s).Nodup) hw.1 hw.2 ho List.nodup_nil h
  | add ns mp cs =>
    obtain ⟨dig, hdig, h⟩ := addFile_ok h
    have hne : toLower dig ≠ [] := by
      have := hq dig hdig; simpa [toLower] using this
    obtain ⟨f1, f2, _, _, f5⟩ := addFixity_fold inv mp cs
    have := foldlM_inv (P := fun i => GapFree i n ∧ OneDigestPerPath i)
      (f := fun i nm => addName i mp (toLower dig) nm) (l := ns)
      (by
        rintro b a b' _ ⟨hb1, hb2⟩ hs
        refine ⟨(addName_headOnly hs).gapFree hb1, addName_oneDigest hb1 ?_ hb2 hne hs⟩
        obtain ⟨s, _, _, hs0, _⟩ := addName_ok hs
        exact pos_of_headState hb1 hs0)
      _ _ ⟨f5.gapFree hw.1, oneDigest_of_versions f1 ho⟩ h
    exact this.2
  | delete p =>
    refine (deleteFile_headOnly h).states (P := fun s => (statePaths s).Nodup) hn ho ?_
    intro s s' hs hs' hP
    obtain ⟨s0, hs0, rfl⟩ := deleteFile_ok h
    rw [hs] at hs0; cases hs0
    rw [headState_set_modified hs] at hs'; cases hs'
    rw [statePaths_stDelete]; exact hP.filter _
  | rename a b =>
    refine (renameFile_headOnly h).states (P := fun s => (statePaths s).Nodup) hn ho ?_
    intro s s' hs hs' hP
    obtain ⟨s0, hs0, rfl⟩ := renameFile_ok h
    rw [hs] at hs0; cases hs0
    rw [headState_set_modified hs] at hs'; cases hs'
    rw [statePaths_stRename]
    refine nodup_map_rename hP ?_
    rw [mem_statePaths_head hn hs, mem_statePaths_head hn hs]; exact hq
  | copy dest d =>
    refine (copyFile_headOnly h).states (P := fun s => (statePaths s).Nodup) hn ho ?_
    intro s s' hs hs' hP
    obtain ⟨_, s0, hs0, ⟨_, rfl⟩ | ⟨hnot, rfl⟩⟩ := copyFile_ok h
    · rw [hs] at hs'; cases hs'; exact hP
    · rw [hs] at hs0; cases hs0
      rw [headState_set_modified hs] at hs'; cases hs'
      rw [(statePaths_stAppend _ _ _).nodup_iff, List.nodup_cons]
      refine ⟨?_, hP⟩
      intro hm
      obtain ⟨d', hd'⟩ := mem_statePaths.1 hm
      have := hq d' ((hasFile_head hn hs).2 hd')
      subst this
      obtain ⟨ps, h1, h2⟩ := hd'
      obtain ⟨v, hv, rfl⟩ := headState_eq_ok.1 hs
      have hk := hw.2 _ _ (mem_of_mget hv)
      apply hnot
      unfold mgetD; rw [mget_of_mem hk h1]; exact h2
  | echo ex pre =>
    obtain ⟨s, hs, h⟩ := echoDelete_ok h
    obtain ⟨i, s', e1, e2, e3, _, _, _, _, _, e9, _⟩ := foldlM_delete hs
      ((statePaths s).filter (fun f => hasPrefix f pre && !(bsearch ex f).2))
    rw [e1] at h; cases h
    refine e3.states (P := fun s => (statePaths s).Nodup) hn ho ?_
    intro t t' ht ht' hP
    rw [hs] at ht; cases ht
    rw [e2] at ht'; cases ht'
    exact hP.sublist e9

/-- **C09** for histories in which no copy or rename goes to a path occupied by other content. -/
theorem C09_one_digest_per_path_partial {inv inv' : Inv} {n : Nat} {ops : List Op}
    (hg : GapFree inv n) (hk : MapKeysOk inv) (ho : OneDigestPerPath inv)
    (hq : Along KeepsUnique inv ops) (h : run inv ops = .ok inv') : OneDigestPerPath inv' :=
  run_inv_along (P := OneDigestPerPath) (Q := KeepsUnique)
    (fun _ _ _ _ hw ho hq hs => step_oneDigest hw ho hq hs) ⟨hg, hk⟩ ho hq h

/-- Histories made of new versions, recorded files, deletions and mirror deletions satisfy the side
condition whatever the inventory: for them **C09** holds without further hypotheses. -/
theorem C09_one_digest_per_path_no_copy_partial {inv inv' : Inv} {n : Nat} {ops : List Op}
    (hg : GapFree inv n) (hk : MapKeysOk inv) (ho : OneDigestPerPath inv)
    (hops : ∀ op ∈ ops, (∀ a b, op ≠ .rename a b) ∧ (∀ a b, op ≠ .copy a b) ∧
      ∀ ns mp cs, op = .add ns mp cs → ∀ a dig, mget cs a = some dig → dig ≠ [])
    (h : run inv ops = .ok inv') : OneDigestPerPath inv' := by
  refine C09_one_digest_per_path_partial hg hk ho ?_ h
  clear hg hk ho h
  induction ops generalizing inv with
  | nil => trivial
  | cons op ops ih =>
    refine ⟨?_, fun i _ => ih (fun o ho => hops o (List.mem_cons_of_mem _ ho))⟩
    obtain ⟨h1, h2, h3⟩ := hops op List.mem_cons_self
    cases op with
    | rename a b => exact absurd rfl (h1 a b)
    | copy a b => exact absurd rfl (h2 a b)
    | add ns mp cs => exact fun dig hd => h3 ns mp cs rfl _ dig hd
    | newVersion => trivial
    | delete => trivial
    | echo => trivial

example : ∀ inv', run exInv (exOps.filter (fun o => match o with
      | .rename .. => false | .copy .. => false | _ => true)) = .ok inv' → OneDigestPerPath inv' := by
  intro inv' h
  refine C09_one_digest_per_path_no_copy_partial exInv_gapFree exInv_mapKeysOk exInv_oneDigest ?_ h
  have key : ∀ op ∈ exOps.filter (fun o => match o with
      | .rename .. => false | .copy .. => false | _ => true),
      (match op with
        | .rename .. => false | .copy .. => false
        | .add _ _ cs => cs.all (fun e => decide (e.2 ≠ [])) | _ => true) = true := by decide
  intro op hop
  have := key op hop
  refine ⟨?_, ?_, ?_⟩
  · rintro a b rfl; cases this
  · rintro a b rfl; cases this
  · rintro ns mp cs rfl a dig hd
    have hall := List.all_eq_true.1 this _ (mem_of_mget hd)
    simpa using hall

/-- **C09 fails** by a virtual copy onto any path of the head that has other content. -/
theorem C09_full_fails_copy {inv : Inv} {n : Nat} (hg : GapFree inv n)
    {p d d' : Str} {m : List Str} (hp : HasFile inv inv.head p d) (hne : d' ≠ d)
    (hno : ¬ HasFile inv inv.head p d') (hm : mget inv.manifest d' = some m) :
    ∃ inv', step inv (.copy p d') = .ok inv' ∧ HasFile inv' inv'.head p d ∧
      HasFile inv' inv'.head p d' ∧ ¬ OneDigestPerPath inv' := by
  obtain ⟨ver, ps, h1, h2, h3⟩ := hp
  have hn := hg.nodup
  have hs : headState inv = .ok ver.state := headState_eq_ok.2 ⟨ver, mget_of_mem hn h1, rfl⟩
  have hnot : p ∉ mgetD ver.state d' := by
    intro hc
    unfold mgetD at hc
    cases he : mget ver.state d' with
    | none => rw [he] at hc; simp at hc
    | some qs =>
      rw [he] at hc
      exact hno ⟨ver, qs, h1, mem_of_mget he, hc⟩
  have hstep : step inv (.copy p d') =
      .ok { setHeadState inv (stAppend ver.state d' p) with modified := true } := by
    show copyFile inv p d' = _
    unfold copyFile
    rw [hm, hs, res_bind_ok, if_neg hnot]; rfl
  refine ⟨_, hstep, ?_⟩
  have hh := step_headOnly (fun _ _ _ _ => by simp) hstep
  have hs' := headState_set_modified hs (stAppend ver.state d' p) true
  have f1 := (hasFile_head (hh.nodup hn) hs' (p := p) (d := d)).2
    ((inSt_stAppend _ _ _ _ _).2 (Or.inl ⟨ps, h2, h3⟩))
  have f2 := (hasFile_head (hh.nodup hn) hs' (p := p) (d := d')).2
    ((inSt_stAppend _ _ _ _ _).2 (Or.inr ⟨rfl, rfl⟩))
  refine ⟨f1, f2, ?_⟩
  intro hone
  obtain ⟨v2, hv2, he⟩ := headState_eq_ok.1 hs'
  have hnd := hone _ _ (mem_of_mget hv2)
  rw [he] at hnd
  exact hne (inSt_unique hnd ((hasFile_head (hh.nodup hn) hs').1 f2) ((hasFile_head (hh.nodup hn) hs').1 f1))

theorem C09_full_fails : ¬ C09_full := by
  intro h
  have hs : headState exInv = .ok [("d2".toList, ["b".toList]), ("d1".toList, ["a".toList])] := by decide
  have hdec := hasFile_head_decide exInv_gapFree.nodup hs
  obtain ⟨inv', h1, _, _, h4⟩ := C09_full_fails_copy exInv_gapFree (p := "a".toList)
    (d := "d1".toList) (d' := "d2".toList) (m := ["v2/content/b".toList])
    ((hdec _ _).2 (by decide)) (by decide) (fun hc => absurd ((hdec _ _).1 hc) (by decide)) (by decide)
  refine h4 (h exInv inv' 2 [.copy "a".toList "d2".toList] exInv_gapFree exInv_mapKeysOk exInv_oneDigest ?_)
  show (step exInv _ >>= fun i => run i []) = _
  rw [h1]; rfl

/-! ## C10 -/

theorem mem_mset_sub {K V : Type} [DecidableEq K] {m : AMap K V} {k : K} {v : V} {e : K × V}
    (h : e ∈ mset m k v) : e = (k, v) ∨ e ∈ m := by
  induction m with
  | nil => simp [mset] at h; exact Or.inl h
  | cons x m ih =>
    obtain ⟨a, b⟩ := x
    simp only [mset] at h
    split at h
    · rcases List.mem_cons.1 h with h | h
      · exact Or.inl h
      · exact Or.inr (List.mem_cons_of_mem _ h)
    · rcases List.mem_cons.1 h with h | h
      · exact Or.inr (by rw [h]; exact List.mem_cons_self)
      · rcases ih h with h | h
        · exact Or.inl h
        · exact Or.inr (List.mem_cons_of_mem _ h)

theorem mem_mkeys_mset {K V : Type} [DecidableEq K] {m : AMap K V} {k j : K} {v : V} :
    j ∈ mkeys (mset m k v) ↔ j = k ∨ j ∈ mkeys m := by
  rw [mkeys_mset]
  split
  · constructor
    · exact Or.inr
    · rintro (rfl | h)
      · assumption
      · exact h
  · rw [List.mem_append, List.mem_singleton, or_comm]

/-- Every digest listed in any version's state block has at least one content path in the manifest,
and no manifest entry is empty. -/
def RefsResolve (inv : Inv) : Prop :=
  (∀ v ver d, (v, ver) ∈ inv.versions → d ∈ mkeys ver.state → ∃ m, (d, m) ∈ inv.manifest) ∧
  (∀ d m, (d, m) ∈ inv.manifest → m ≠ [])

theorem RefsResolve.noDangling {inv : Inv} (h : RefsResolve inv) : NoDangling inv := by
  rintro v p d ⟨ver, ps, h1, h2, _⟩
  obtain ⟨m, hm⟩ := h.1 v ver d h1 (mem_mkeys_of_mem h2)
  exact ⟨m, hm, h.2 d m hm⟩

/-- recording a file names its content path -/
def NamesContent (_ : Inv) : Op → Prop
  | .add _ mp _ => mp ≠ []
  | _ => True

theorem mem_mkeys_iff {K V : Type} {m : AMap K V} {k : K} : k ∈ mkeys m ↔ ∃ v, (k, v) ∈ m := by
  unfold mkeys; rw [List.mem_map]
  constructor
  · rintro ⟨⟨a, b⟩, h, rfl⟩; exact ⟨b, h⟩
  · rintro ⟨v, h⟩; exact ⟨_, h, rfl⟩

/-- The keys of the states are among the keys of the manifest. -/
def KeysIn (K : List Str) (inv : Inv) : Prop := StatesOk (fun s => ∀ d ∈ mkeys s, d ∈ K) inv

theorem refsResolve_iff (inv : Inv) : RefsResolve inv ↔
    KeysIn (mkeys inv.manifest) inv ∧ ∀ d m, (d, m) ∈ inv.manifest → m ≠ [] := by
  unfold RefsResolve KeysIn StatesOk
  simp only [mem_mkeys_iff (m := inv.manifest)]
  exact and_congr_left fun _ => ⟨fun h v ver hm d hd => h v ver d hm hd, fun h v ver d hm hd => h v ver hm d hd⟩

theorem mkeys_stAppend {s : DMap} {d p e : Str} : e ∈ mkeys (stAppend s d p) ↔ e = d ∨ e ∈ mkeys s :=
  mem_mkeys_mset

theorem mkeys_stTouch {s : DMap} {d e : Str} : e ∈ mkeys (stTouch s d) ↔ e = d ∨ e ∈ mkeys s :=
  mem_mkeys_mset

theorem mkeys_stAddName {s : DMap} {d p e : Str} {dup upd : Bool} :
    e ∈ mkeys (stAddName s d p dup upd) ↔ e = d ∨ e ∈ mkeys s := by
  unfold stAddName
  have h2 : e ∈ mkeys (if upd = true then stDelete (stTouch s d) p else stTouch s d) ↔
      e = d ∨ e ∈ mkeys s := by
    split
    · rw [mkeys_stDelete]; exact mkeys_stTouch
    · exact mkeys_stTouch
  cases dup with
  | true => exact h2
  | false =>
    show e ∈ mkeys (stAppend _ d p) ↔ _
    rw [mkeys_stAppend, h2]; tauto

theorem mkeys_manAdd {m : DMap} {mp d e : Str} (hmp : mp ≠ []) :
    e ∈ mkeys (manAdd m mp d) ↔ e = d ∨ e ∈ mkeys m := by
  unfold manAdd; rw [if_pos hmp]; exact mem_mkeys_mset

theorem addName_refsResolve {inv inv' : Inv} {mp d p : Str} (hn : (mkeys inv.versions).Nodup)
    (hr : RefsResolve inv) (hmp : mp ≠ []) (h : addName inv mp d p = .ok inv') : RefsResolve inv' := by
  rw [refsResolve_iff] at hr ⊢
  obtain ⟨s, dup, upd, hs, _, _, hs', hm, _, _, hh⟩ := addName_ok h
  refine ⟨?_, ?_⟩
  · rw [hm]
    refine hh.states (P := fun s => ∀ e ∈ mkeys s, e ∈ mkeys (manAdd inv.manifest mp d)) hn ?_ ?_
    · intro v ver hv e he
      exact (mkeys_manAdd hmp).2 (Or.inr (hr.1 v ver hv e he))
    · intro t t' ht ht' hP e he
      rw [hs] at ht; cases ht
      rw [hs'] at ht'; cases ht'
      rcases mkeys_stAddName.1 he with rfl | he
      · exact (mkeys_manAdd hmp).2 (Or.inl rfl)
      · exact hP e he
  · intro e m he
    rw [hm] at he
    unfold manAdd at he
    rw [if_pos hmp] at he
    rcases mem_mset_sub he with he | he
    · cases he; simp
    · exact hr.2 e m he

theorem step_refsResolve {inv inv' : Inv} {op : Op} {n : Nat} (hw : WF inv n) (hr : RefsResolve inv)
    (hq : NamesContent inv op) (h : step inv op = .ok inv') : RefsResolve inv' := by
  have hn := hw.1.nodup
  have hr0 := hr
  rw [refsResolve_iff] at hr
  cases op with
  | newVersion m u a t =>
    rw [refsResolve_iff]
    have h : newVersion inv m u a t = .ok inv' := h
    have hm : inv'.manifest = inv.manifest := by
      obtain ⟨s, _, _, he⟩ := newVersion_gapFree hw.1 hw.2 m u a t
      rw [he] at h; cases h; rfl
    unfold KeysIn
    rw [hm]
    exact ⟨newVersion_states hw.1 hw.2 hr.1 (by simp) h, hr.2⟩
  | add ns mp cs =>
    obtain ⟨dig, hdig, h⟩ := addFile_ok h
    obtain ⟨f1, f2, f3, _, f5⟩ := addFixity_fold inv mp cs
    have := foldlM_inv (P := fun i => GapFree i n ∧ RefsResolve i)
      (f := fun i nm => addName i mp (toLower dig) nm) (l := ns)
      (by
        rintro b a b' _ ⟨hb1, hb2⟩ hs
        exact ⟨(addName_headOnly hs).gapFree hb1, addName_refsResolve hb1.nodup hb2 hq hs⟩)
      _ _ ⟨f5.gapFree hw.1, by
        refine ⟨fun v ver d hv => ?_, fun d m hm => hr.2 d m (f3 ▸ hm)⟩
        rw [f1] at hv; rw [f3]; exact hr0.1 v ver d hv⟩ h
    exact this.2
  | delete p =>
    rw [refsResolve_iff]
    have hm := deleteFile_manifest h
    unfold KeysIn; rw [hm]
    refine ⟨?_, hr.2⟩
    refine (deleteFile_headOnly h).states (P := fun s => ∀ e ∈ mkeys s, e ∈ mkeys inv.manifest) hn hr.1 ?_
    intro s s' hs hs' hP
    obtain ⟨s0, hs0, rfl⟩ := deleteFile_ok h
    rw [hs] at hs0; cases hs0
    rw [headState_set_modified hs] at hs'; cases hs'
    rw [mkeys_stDelete]; exact hP
  | rename a b =>
    rw [refsResolve_iff]
    obtain ⟨s0, hs0, he⟩ := renameFile_ok h
    have hm : inv'.manifest = inv.manifest := by rw [he]; simp
    unfold KeysIn; rw [hm]
    refine ⟨?_, hr.2⟩
    refine (renameFile_headOnly h).states (P := fun s => ∀ e ∈ mkeys s, e ∈ mkeys inv.manifest) hn hr.1 ?_
    intro s s' hs hs' hP
    rw [hs] at hs0; cases hs0
    rw [he, headState_set_modified hs] at hs'; cases hs'
    rw [mkeys_stRename]; exact hP
  | copy dest d =>
    rw [refsResolve_iff]
    obtain ⟨⟨ms, hms⟩, s0, hs0, ⟨_, he⟩ | ⟨_, he⟩⟩ := copyFile_ok h
    · rw [he]; exact hr
    · have hm : inv'.manifest = inv.manifest := by rw [he]; simp
      unfold KeysIn; rw [hm]
      refine ⟨?_, hr.2⟩
      refine (copyFile_headOnly h).states (P := fun s => ∀ e ∈ mkeys s, e ∈ mkeys inv.manifest) hn hr.1 ?_
      intro s s' hs hs' hP e hek
      rw [hs] at hs0; cases hs0
      rw [he, headState_set_modified hs] at hs'; cases hs'
      rcases mkeys_stAppend.1 hek with rfl | hek
      · exact mem_mkeys_of_mem (mem_of_mget hms)
      · exact hP e hek
  | echo ex pre =>
    rw [refsResolve_iff]
    obtain ⟨s, hs, h⟩ := echoDelete_ok h
    obtain ⟨i, s', e1, e2, e3, _, e5, _, _, e8, _, _⟩ := foldlM_delete hs
      ((statePaths s).filter (fun f => hasPrefix f pre && !(bsearch ex f).2))
    rw [e1] at h; cases h
    unfold KeysIn; rw [e5]
    refine ⟨?_, hr.2⟩
    refine e3.states (P := fun s => ∀ e ∈ mkeys s, e ∈ mkeys inv.manifest) hn hr.1 ?_
    intro t t' ht ht' hP
    rw [hs] at ht; cases ht
    rw [e2] at ht'; cases ht'
    rw [e8]; exact hP

/-- **C10.** Along every history in which recorded files name their content path (the object API always
does, see `C13`), every digest of every version's state block has a content path in the manifest. -/
theorem C10_no_dangling_digests {inv inv' : Inv} {n : Nat} {ops : List Op} (hg : GapFree inv n)
    (hk : MapKeysOk inv) (hr : RefsResolve inv)
    (hops : ∀ ns mp cs, Op.add ns mp cs ∈ ops → mp ≠ []) (h : run inv ops = .ok inv') :
    RefsResolve inv' ∧ NoDangling inv' := by
  have hq : ∀ i, Along NamesContent i ops := by
    clear hr h hg hk
    induction ops with
    | nil => intro i; trivial
    | cons op ops ih =>
      intro i
      refine ⟨?_, fun j _ => ih (fun ns mp cs hm => hops ns mp cs (List.mem_cons_of_mem _ hm)) j⟩
      cases op with
      | add ns mp cs => exact hops ns mp cs List.mem_cons_self
      | _ => trivial
  have := run_inv_along (P := RefsResolve) (Q := NamesContent)
    (fun _ _ _ _ hw hr hq hs => step_refsResolve hw hr hq hs) ⟨hg, hk⟩ hr (hq inv) h
  exact ⟨this, this.noDangling⟩

/-- **C10** for a freshly created object. -/
theorem C10_no_dangling_digests_fresh {id spec alg cd : Str} {fa : List Str} {inv' : Inv}
    {ops : List Op} (hops : ∀ ns mp cs, Op.add ns mp cs ∈ ops → mp ≠ [])
    (h : run (newInv id spec alg cd fa) ops = .ok inv') : NoDangling inv' :=
  (C10_no_dangling_digests (newInv_wf id spec alg cd fa).1 (newInv_wf id spec alg cd fa).2
    ⟨by intro v ver d h; simp [newInv] at h, by intro d m h; simp [newInv] at h⟩ hops h).2

example : ∀ inv', run (newInv "a".toList [] "sha512".toList [] []) [.newVersion [] [] [] [],
    .add ["a".toList] "v1/content/a".toList [("sha512".toList, "d1".toList)], .copy "b".toList "d1".toList] = .ok inv' →
    NoDangling inv' := fun _ h =>
  C10_no_dangling_digests_fresh (fun ns mp cs hm => by
    rcases List.mem_cons.1 hm with h | hm
    · cases h
    · rcases List.mem_cons.1 hm with h | hm
      · cases h; decide
      · rcases List.mem_cons.1 hm with h | hm
        · cases h
        · cases hm) h

theorem exInv_refs : RefsResolve exInv := by
  have h1 : ∀ e ∈ exInv.versions, ∀ d ∈ mkeys e.2.state, d ∈ mkeys exInv.manifest := by decide
  have h2 : ∀ e ∈ exInv.manifest, e.2 ≠ [] := by decide
  exact ⟨fun v ver d hv hd => mem_mkeys_iff.1 (h1 (v, ver) hv d hd), fun d m hm => h2 (d, m) hm⟩

example : ∀ inv', run exInv exOps = .ok inv' → NoDangling inv' := fun _ h =>
  (C10_no_dangling_digests exInv_gapFree exInv_mapKeysOk exInv_refs (by
    intro ns mp cs hm
    have : ∀ o ∈ exOps, (match o with | .add _ mp _ => decide (mp ≠ []) | _ => true) = true := by decide
    have := this _ hm
    simpa using this) h).2

/-! ## C11 -/

/-- Every digest of the manifest occurs as key in the state block of some version (OCFL E107). -/
def ManifestReferenced (inv : Inv) : Prop :=
  ∀ d ms, (d, ms) ∈ inv.manifest → ∃ v ver ps, (v, ver) ∈ inv.versions ∧ (d, ps) ∈ ver.state

/-- the keys of the head state only grow, nothing else is touched, new manifest keys are in the head -/
theorem manifestReferenced_headOnly {a b : Inv} (hh : HeadOnly a b) (hn : (mkeys a.versions).Nodup)
    {s s' : DMap} (hs : headState a = .ok s) (hs' : headState b = .ok s')
    (hsub : ∀ e ∈ mkeys s, e ∈ mkeys s')
    (hman : ∀ e ∈ mkeys b.manifest, e ∈ mkeys a.manifest ∨ e ∈ mkeys s')
    (hr : ManifestReferenced a) : ManifestReferenced b := by
  have hb : ∀ e ∈ mkeys s', ∃ v ver ps, (v, ver) ∈ b.versions ∧ (e, ps) ∈ ver.state := by
    intro e he
    obtain ⟨v, hv, rfl⟩ := headState_eq_ok.1 hs'
    obtain ⟨ps, hps⟩ := mem_mkeys_iff.1 he
    exact ⟨_, v, ps, mem_of_mget hv, hps⟩
  intro d ms hm
  rcases hman d (mem_mkeys_of_mem hm) with h | h
  · obtain ⟨ms', hm'⟩ := mem_mkeys_iff.1 h
    obtain ⟨v, ver, ps, h1, h2⟩ := hr d ms' hm'
    by_cases hv : v = a.head
    · subst hv
      refine hb d (hsub d ?_)
      obtain ⟨v', hv', rfl⟩ := headState_eq_ok.1 hs
      rw [mget_of_mem hn h1] at hv'; cases hv'
      exact mem_mkeys_of_mem h2
    · exact ⟨v, ver, ps, mem_of_mget (by rw [hh.other v hv]; exact mget_of_mem hn h1), h2⟩
  · exact hb d h

theorem addName_manifestReferenced {inv inv' : Inv} {mp d p : Str} (hn : (mkeys inv.versions).Nodup)
    (hr : ManifestReferenced inv) (h : addName inv mp d p = .ok inv') : ManifestReferenced inv' := by
  obtain ⟨s, dup, upd, hs, _, _, hs', hm, _, _, hh⟩ := addName_ok h
  refine manifestReferenced_headOnly hh hn hs hs' ?_ ?_ hr
  · intro e he; exact mkeys_stAddName.2 (Or.inr he)
  · intro e he
    rw [hm] at he
    unfold manAdd at he
    split at he
    · rcases mem_mkeys_mset.1 he with rfl | he
      · exact Or.inr (mkeys_stAddName.2 (Or.inl rfl))
      · exact Or.inl he
    · exact Or.inl he

theorem step_manifestReferenced {inv inv' : Inv} {op : Op} {n : Nat} (hw : WF inv n)
    (hr : ManifestReferenced inv) (h : step inv op = .ok inv') : ManifestReferenced inv' := by
  have hn := hw.1.nodup
  cases op with
  | newVersion m u a t =>
    have h : newVersion inv m u a t = .ok inv' := h
    obtain ⟨s, _, _, he⟩ := newVersion_gapFree hw.1 hw.2 m u a t
    rw [he] at h; cases h
    intro d ms hm
    obtain ⟨v, ver, ps, h1, h2⟩ := hr d ms hm
    exact ⟨v, ver, ps, List.mem_append.2 (Or.inl h1), h2⟩
  | add ns mp cs =>
    obtain ⟨dig, hdig, h⟩ := addFile_ok h
    obtain ⟨f1, f2, f3, _, f5⟩ := addFixity_fold inv mp cs
    have := foldlM_inv (P := fun i => GapFree i n ∧ ManifestReferenced i)
      (f := fun i nm => addName i mp (toLower dig) nm) (l := ns)
      (by
        rintro b a b' _ ⟨hb1, hb2⟩ hs
        exact ⟨(addName_headOnly hs).gapFree hb1, addName_manifestReferenced hb1.nodup hb2 hs⟩)
      _ _ ⟨f5.gapFree hw.1, by
        intro d ms hm
        rw [f3] at hm; rw [f1]; exact hr d ms hm⟩ h
    exact this.2
  | delete p =>
    have hm := deleteFile_manifest h
    obtain ⟨s, hs, he⟩ := deleteFile_ok h
    have hs' : headState inv' = .ok (stDelete s p) := by rw [he]; exact headState_set_modified hs _ _
    refine manifestReferenced_headOnly (deleteFile_headOnly h) hn hs hs' ?_ ?_ hr
    · intro e he; rw [mkeys_stDelete]; exact he
    · intro e he; rw [hm] at he; exact Or.inl he
  | rename a b =>
    obtain ⟨s, hs, he⟩ := renameFile_ok h
    have hm : inv'.manifest = inv.manifest := by rw [he]; simp
    have hs' : headState inv' = .ok (stRename s a b) := by rw [he]; exact headState_set_modified hs _ _
    refine manifestReferenced_headOnly (renameFile_headOnly h) hn hs hs' ?_ ?_ hr
    · intro e he; rw [mkeys_stRename]; exact he
    · intro e he; rw [hm] at he; exact Or.inl he
  | copy dest d =>
    obtain ⟨_, s, hs, ⟨_, he⟩ | ⟨_, he⟩⟩ := copyFile_ok h
    · rw [he]; exact hr
    · have hm : inv'.manifest = inv.manifest := by rw [he]; simp
      have hs' : headState inv' = .ok (stAppend s d dest) := by rw [he]; exact headState_set_modified hs _ _
      refine manifestReferenced_headOnly (copyFile_headOnly h) hn hs hs' ?_ ?_ hr
      · intro e he; exact mkeys_stAppend.2 (Or.inr he)
      · intro e he; rw [hm] at he; exact Or.inl he
  | echo ex pre =>
    obtain ⟨s, hs, h⟩ := echoDelete_ok h
    obtain ⟨i, s', e1, e2, e3, _, e5, _, _, e8, _, _⟩ := foldlM_delete hs
      ((statePaths s).filter (fun f => hasPrefix f pre && !(bsearch ex f).2))
    rw [e1] at h; cases h
    refine manifestReferenced_headOnly e3 hn hs e2 ?_ ?_ hr
    · intro e he; rw [e8]; exact he
    · intro e he; rw [e5] at he; exact Or.inl he

/-- **C11.** Along every history every manifest digest is a digest of some version's state block. -/
theorem C11_manifest_referenced {inv inv' : Inv} {n : Nat} {ops : List Op} (hg : GapFree inv n)
    (hk : MapKeysOk inv) (hr : ManifestReferenced inv) (h : run inv ops = .ok inv') :
    ManifestReferenced inv' :=
  run_inv (P := ManifestReferenced) (fun _ _ _ _ hw hr hs => step_manifestReferenced hw hr hs)
    ⟨hg, hk⟩ hr h

/-- **C11** for a freshly created object. -/
theorem C11_manifest_referenced_fresh {id spec alg cd : Str} {fa : List Str} {inv' : Inv}
    {ops : List Op} (h : run (newInv id spec alg cd fa) ops = .ok inv') : ManifestReferenced inv' :=
  C11_manifest_referenced (newInv_wf id spec alg cd fa).1 (newInv_wf id spec alg cd fa).2
    (by intro d m h; simp [newInv] at h) h

example : ∀ inv', run (newInv "a".toList [] "sha512".toList [] []) [.newVersion [] [] [] [],
    .add ["a".toList] "v1/content/a".toList [("sha512".toList, "d1".toList)], .newVersion [] [] [] [], .delete "a".toList] = .ok inv' →
    ManifestReferenced inv' := fun _ h => C11_manifest_referenced_fresh h

example : ∀ inv', run exInv exOps = .ok inv' → ManifestReferenced inv' := fun _ h =>
  C11_manifest_referenced exInv_gapFree exInv_mapKeysOk (by
    have : ∀ e ∈ exInv.manifest, ∃ w ∈ exInv.versions, ∃ f ∈ w.2.state, f.1 = e.1 := by decide
    intro d ms hm
    obtain ⟨w, hw, f, hf, he⟩ := this _ hm
    exact ⟨w.1, w.2, f.2, hw, by have he : f.1 = d := he; rw [← he]; exact hf⟩) h

/-- The stronger reading of C11, "some version has a *logical path* with that digest", is false: if the
same path is recorded twice in one version, the first content stays in the manifest without any path. -/
theorem C11_manifest_digest_without_path : ∃ inv', run exInv
      [.add ["c".toList] "v2/content/c".toList [("sha512".toList, "d3".toList)],
       .add ["c".toList] "v2/content/c".toList [("sha512".toList, "d4".toList)]] = .ok inv' ∧
      mget inv'.manifest "d3".toList = some ["v2/content/c".toList] ∧
      ∀ v p, ¬ HasFile inv' v p "d3".toList := by
  have hsome : (run exInv
      [.add ["c".toList] "v2/content/c".toList [("sha512".toList, "d3".toList)],
       .add ["c".toList] "v2/content/c".toList [("sha512".toList, "d4".toList)]]).toOption.any
      (fun i => decide (mget i.manifest "d3".toList = some ["v2/content/c".toList] ∧
        ∀ w ∈ i.versions, ∀ f ∈ w.2.state, f.1 = "d3".toList → f.2 = [])) = true := by decide
  cases hr : run exInv
      [.add ["c".toList] "v2/content/c".toList [("sha512".toList, "d3".toList)],
       .add ["c".toList] "v2/content/c".toList [("sha512".toList, "d4".toList)]] with
  | error e => rw [hr] at hsome; cases hsome
  | ok inv' =>
    rw [hr] at hsome
    have hsome := of_decide_eq_true (show decide _ = true from hsome)
    refine ⟨inv', rfl, hsome.1, ?_⟩
    rintro v p ⟨ver, ps, h1, h2, h3⟩
    have := hsome.2 _ h1 _ h2 rfl
    simp only at this
    rw [this] at h3; simp at h3

/-! ## C14 -/

/-- **C14.** Deleting a path of an object with at least one version succeeds, removes exactly that path
from the head, and changes neither other paths nor other versions nor the manifest. -/
theorem C14_delete_exact {inv : Inv} {n : Nat} (hg : GapFree inv n) (hn : 0 < n) (p : Str) :
    ∃ inv', deleteFile inv p = .ok inv' ∧ inv'.head = inv.head ∧
      (∀ q d, HasFile inv' inv.head q d ↔ HasFile inv inv.head q d ∧ q ≠ p) ∧
      (∀ v, v ≠ inv.head → ∀ q d, HasFile inv' v q d ↔ HasFile inv v q d) ∧
      inv'.manifest = inv.manifest ∧
      (inv'.modified = true ↔ inv.modified = true ∨ HasPath inv inv.head p) := by
  obtain ⟨s, hs⟩ := hg.headState hn
  have h := deleteFile_of_headState hs p
  have hh := deleteFile_headOnly h
  have hs' := headState_set_modified hs (stDelete s p)
    (inv.modified || s.any (fun e => decide (p ∈ e.2)))
  refine ⟨_, h, hh.head, ?_, ?_, ?_, ?_⟩
  · intro q d
    have := hasFile_head (hh.nodup hg.nodup) hs' (p := q) (d := d)
    rw [hh.head] at this
    rw [this, hasFile_head hg.nodup hs, inSt_stDelete, and_comm]
  · intro v hv q d; exact hh.hasFile_other hg.nodup hv
  · simp
  · simp only [Bool.or_eq_true, List.any_eq_true, decide_eq_true_eq]
    refine or_congr_right ?_
    unfold HasPath
    simp only [hasFile_head hg.nodup hs]
    constructor
    · rintro ⟨e, h1, h2⟩; exact ⟨e.1, e.2, h1, h2⟩
    · rintro ⟨d, ps, h1, h2⟩; exact ⟨_, h1, h2⟩

example : ∃ inv', deleteFile exInv "b".toList = .ok inv' ∧ ¬ HasFile inv' exInv.head "b".toList "d2".toList ∧
    HasFile inv' exInv.head "a".toList "d1".toList := by
  obtain ⟨inv', h1, _, h2, _⟩ := C14_delete_exact exInv_gapFree (by decide) "b".toList
  refine ⟨inv', h1, fun h => ((h2 _ _).1 h).2 rfl, (h2 _ _).2 ⟨?_, by decide⟩⟩
  exact ⟨_, ["a".toList], List.mem_cons_self, by decide, by decide⟩

/-! ## C15 -/

/-- **C15, full statement** (false). -/
def C15_full : Prop :=
  ∀ (inv : Inv) (n : Nat) (a b d : Str), GapFree inv n → 0 < n → MapKeysOk inv → OneDigestPerPath inv →
    a ≠ b → HasFile inv inv.head a d → ∃ inv', renameFile inv a b = .ok inv' ∧
      (∀ e, HasFile inv' inv.head b e ↔ e = d) ∧ (¬ HasPath inv' inv.head a) ∧
      ∀ q e, q ≠ a → q ≠ b → (HasFile inv' inv.head q e ↔ HasFile inv inv.head q e)

/-- **C15, what the code does**: `a` is replaced by `b`, whatever was recorded at `b` stays. -/
theorem C15_rename_exact {inv : Inv} {n : Nat} (hg : GapFree inv n) (hn : 0 < n) (a b : Str) :
    ∃ inv', renameFile inv a b = .ok inv' ∧ inv'.head = inv.head ∧
      (∀ q d, HasFile inv' inv.head q d ↔
        (q ≠ a ∧ HasFile inv inv.head q d) ∨ (q = b ∧ HasFile inv inv.head a d)) ∧
      (∀ v, v ≠ inv.head → ∀ q d, HasFile inv' v q d ↔ HasFile inv v q d) ∧
      inv'.manifest = inv.manifest ∧
      (inv'.modified = true ↔ inv.modified = true ∨ HasPath inv inv.head a) := by
  obtain ⟨s, hs⟩ := hg.headState hn
  have h := renameFile_of_headState hs a b
  have hh := renameFile_headOnly h
  have hs' := headState_set_modified hs (stRename s a b)
    (inv.modified || s.any (fun e => decide (a ∈ e.2)))
  refine ⟨_, h, hh.head, ?_, ?_, ?_, ?_⟩
  · intro q d
    have := hasFile_head (hh.nodup hg.nodup) hs' (p := q) (d := d)
    rw [hh.head] at this
    rw [this, hasFile_head hg.nodup hs, hasFile_head hg.nodup hs, inSt_stRename]
  · intro v hv q d; exact hh.hasFile_other hg.nodup hv
  · simp
  · simp only [Bool.or_eq_true, List.any_eq_true, decide_eq_true_eq]
    refine or_congr_right ?_
    unfold HasPath
    simp only [hasFile_head hg.nodup hs]
    constructor
    · rintro ⟨e, h1, h2⟩; exact ⟨e.1, e.2, h1, h2⟩
    · rintro ⟨d, ps, h1, h2⟩; exact ⟨_, h1, h2⟩

/-- **C15** for a destination that is not in the head. -/
theorem C15_rename_partial {inv : Inv} {n : Nat} (hg : GapFree inv n) (hn : 0 < n)
    (ho : OneDigestPerPath inv) {a b d : Str} (hab : a ≠ b) (ha : HasFile inv inv.head a d)
    (hb : ¬ HasPath inv inv.head b) :
    ∃ inv', renameFile inv a b = .ok inv' ∧
      (∀ e, HasFile inv' inv.head b e ↔ e = d) ∧ (¬ HasPath inv' inv.head a) ∧
      ∀ q e, q ≠ a → q ≠ b → (HasFile inv' inv.head q e ↔ HasFile inv inv.head q e) := by
  obtain ⟨inv', h1, _, h2, _⟩ := C15_rename_exact hg hn a b
  refine ⟨inv', h1, ?_, ?_, ?_⟩
  · intro e
    rw [h2]
    constructor
    · rintro (⟨_, h⟩ | ⟨_, h⟩)
      · exact absurd ⟨e, h⟩ hb
      · obtain ⟨s, hs⟩ := hg.headState hn
        obtain ⟨v, hv, hvs⟩ := headState_eq_ok.1 hs
        have hone := ho _ _ (mem_of_mget hv)
        rw [hvs] at hone
        exact inSt_unique hone ((hasFile_head hg.nodup hs).1 h) ((hasFile_head hg.nodup hs).1 ha)
    · rintro rfl; exact Or.inr ⟨rfl, ha⟩
  · rintro ⟨e, he⟩
    rcases (h2 _ _).1 he with ⟨h, _⟩ | ⟨h, _⟩
    · exact h rfl
    · exact hab h
  · intro q e hqa hqb
    rw [h2]
    constructor
    · rintro (⟨_, h⟩ | ⟨h, _⟩)
      · exact h
      · exact absurd h hqb
    · exact fun h => Or.inl ⟨hqa, h⟩

example : ∃ inv', renameFile exInv "a".toList "z".toList = .ok inv' ∧
    (∀ e, HasFile inv' exInv.head "z".toList e ↔ e = "d1".toList) ∧ ¬ HasPath inv' exInv.head "a".toList := by
  have hs : headState exInv = .ok [("d2".toList, ["b".toList]), ("d1".toList, ["a".toList])] := by decide
  have hdec := hasFile_head_decide exInv_gapFree.nodup hs
  obtain ⟨inv', h1, h2, h3, _⟩ := C15_rename_partial exInv_gapFree (by decide) exInv_oneDigest
    (a := "a".toList) (b := "z".toList) (d := "d1".toList) (by decide) ((hdec _ _).2 (by decide)) (by
      rintro ⟨e, he⟩
      obtain ⟨x, hx, _, hb⟩ := (hdec _ _).1 he
      have : ∀ e ∈ [("d2".toList, ["b".toList]), ("d1".toList, ["a".toList])], "z".toList ∉ e.2 := by decide
      exact this x hx hb)
  exact ⟨inv', h1, h2, h3⟩

/-- **C15 fails** for every destination occupied by other content: it then has two digests. -/
theorem C15_full_fails_occupied {inv : Inv} {n : Nat} (hg : GapFree inv n) (hn : 0 < n)
    {a b d d' : Str} (hab : a ≠ b) (ha : HasFile inv inv.head a d) (hb : HasFile inv inv.head b d') :
    ∃ inv', renameFile inv a b = .ok inv' ∧ HasFile inv' inv.head b d ∧ HasFile inv' inv.head b d' := by
  obtain ⟨inv', h1, _, h2, _⟩ := C15_rename_exact hg hn a b
  exact ⟨inv', h1, (h2 _ _).2 (Or.inr ⟨rfl, ha⟩), (h2 _ _).2 (Or.inl ⟨Ne.symm hab, hb⟩)⟩

theorem C15_full_fails : ¬ C15_full := by
  intro h
  have hs : headState exInv = .ok [("d2".toList, ["b".toList]), ("d1".toList, ["a".toList])] := by decide
  have hdec := hasFile_head_decide exInv_gapFree.nodup hs
  have ha := (hdec "a".toList "d1".toList).2 (by decide)
  have hb := (hdec "b".toList "d2".toList).2 (by decide)
  obtain ⟨i, h1, h2, _⟩ := h exInv 2 "a".toList "b".toList "d1".toList exInv_gapFree (by decide)
    exInv_mapKeysOk exInv_oneDigest (by decide) ha
  obtain ⟨j, h3, _, h4⟩ := C15_full_fails_occupied exInv_gapFree (by decide) (by decide) ha hb
  rw [h1] at h3; cases h3
  exact absurd ((h2 _).1 h4) (by decide)

/-! ## C16 -/

/-- **C16, full statement** (false): a virtual copy makes the head map the path to that content and
nothing else. -/
def C16_full : Prop :=
  ∀ (inv : Inv) (n : Nat) (p d : Str), GapFree inv n → 0 < n → MapKeysOk inv → OneDigestPerPath inv →
    (∃ m, (d, m) ∈ inv.manifest) → ∃ inv', copyFile inv p d = .ok inv' ∧
      (∀ e, HasFile inv' inv.head p e ↔ e = d) ∧
      ∀ q e, q ≠ p → (HasFile inv' inv.head q e ↔ HasFile inv inv.head q e)

/-- **C16, what the code does**: the path gets the digest in addition to what it had. -/
theorem C16_copy_exact {inv : Inv} {n : Nat} (hg : GapFree inv n) (hn : 0 < n) (hk : MapKeysOk inv)
    {p d : Str} (hm : ∃ m, (d, m) ∈ inv.manifest) :
    ∃ inv', copyFile inv p d = .ok inv' ∧ inv'.head = inv.head ∧
      (∀ q e, HasFile inv' inv.head q e ↔ HasFile inv inv.head q e ∨ (q = p ∧ e = d)) ∧
      (∀ v, v ≠ inv.head → ∀ q e, HasFile inv' v q e ↔ HasFile inv v q e) ∧
      inv'.manifest = inv.manifest ∧
      (inv'.modified = true ↔ inv.modified = true ∨ ¬ HasFile inv inv.head p d) := by
  obtain ⟨s, hs⟩ := hg.headState hn
  obtain ⟨ms, hms⟩ := Option.isSome_iff_exists.1 (mget_isSome_iff.2 (mem_mkeys_iff.2 hm))
  have hin : p ∈ mgetD s d ↔ HasFile inv inv.head p d := by
    rw [hasFile_head hg.nodup hs]
    obtain ⟨v, hv, rfl⟩ := headState_eq_ok.1 hs
    have hkk := hk _ _ (mem_of_mget hv)
    unfold mgetD InSt
    constructor
    · intro h
      cases he : mget v.state d with
      | none => rw [he] at h; simp at h
      | some ps => rw [he] at h; exact ⟨ps, mem_of_mget he, h⟩
    · rintro ⟨ps, h1, h2⟩; rw [mget_of_mem hkk h1]; exact h2
  by_cases hp : p ∈ mgetD s d
  · have h : copyFile inv p d = .ok inv := by
      unfold copyFile; rw [hms, hs, res_bind_ok, if_pos hp]
    refine ⟨inv, h, rfl, ?_, fun _ _ _ _ => Iff.rfl, rfl, ?_⟩
    · intro q e
      constructor
      · exact Or.inl
      · rintro (h | ⟨rfl, rfl⟩)
        · exact h
        · exact hin.1 hp
    · constructor
      · exact Or.inl
      · rintro (h | h)
        · exact h
        · exact absurd (hin.1 hp) h
  · have h : copyFile inv p d = .ok { setHeadState inv (stAppend s d p) with modified := true } := by
      unfold copyFile; rw [hms, hs, res_bind_ok, if_neg hp]; rfl
    have hh := copyFile_headOnly h
    have hs' := headState_set_modified hs (stAppend s d p) true
    refine ⟨_, h, hh.head, ?_, ?_, by simp, ?_⟩
    · intro q e
      have := hasFile_head (hh.nodup hg.nodup) hs' (p := q) (d := e)
      rw [hh.head] at this
      rw [this, hasFile_head hg.nodup hs, inSt_stAppend]
    · intro v hv q e; exact hh.hasFile_other hg.nodup hv
    · rw [← hin]; simp [hp]

/-- **C16**, refusal: content that is not in the manifest is refused. -/
theorem C16_copy_refused {inv : Inv} {p d : Str} (hm : ¬ ∃ m, (d, m) ∈ inv.manifest) :
    ∃ msg, copyFile inv p d = .error (.error msg) := by
  have : mget inv.manifest d = none := mget_eq_none_iff.2 (fun h => hm (mem_mkeys_iff.1 h))
  exact ⟨_, by unfold copyFile; rw [this]⟩

example : ∃ msg, copyFile exInv "z".toList "d9".toList = .error (.error msg) :=
  C16_copy_refused (fun ⟨_, hm⟩ => (by decide : "d9".toList ∉ mkeys exInv.manifest) (mem_mkeys_of_mem hm))

/-- **C16** for a path which is not in the head with other content. -/
theorem C16_copy_partial {inv : Inv} {n : Nat} (hg : GapFree inv n) (hn : 0 < n) (hk : MapKeysOk inv)
    {p d : Str} (hm : ∃ m, (d, m) ∈ inv.manifest)
    (hp : ∀ e, HasFile inv inv.head p e → e = d) : ∃ inv', copyFile inv p d = .ok inv' ∧
      (∀ e, HasFile inv' inv.head p e ↔ e = d) ∧
      ∀ q e, q ≠ p → (HasFile inv' inv.head q e ↔ HasFile inv inv.head q e) := by
  obtain ⟨inv', h1, _, h2, _⟩ := C16_copy_exact hg hn hk (p := p) hm
  refine ⟨inv', h1, ?_, ?_⟩
  · intro e
    rw [h2]
    constructor
    · rintro (h | ⟨_, h⟩)
      · exact hp e h
      · exact h
    · rintro rfl; exact Or.inr ⟨rfl, rfl⟩
  · intro q e hq
    rw [h2]
    constructor
    · rintro (h | ⟨h, _⟩)
      · exact h
      · exact absurd h hq
    · exact Or.inl

example : ∃ inv', copyFile exInv "z".toList "d1".toList = .ok inv' ∧
    (∀ e, HasFile inv' exInv.head "z".toList e ↔ e = "d1".toList) := by
  have hs : headState exInv = .ok [("d2".toList, ["b".toList]), ("d1".toList, ["a".toList])] := by decide
  have hdec := hasFile_head_decide exInv_gapFree.nodup hs
  obtain ⟨inv', h1, h2, _⟩ := C16_copy_partial exInv_gapFree (by decide) exInv_mapKeysOk
    (p := "z".toList) (d := "d1".toList) ⟨["v1/content/a".toList], by decide⟩ (by
      intro e he
      obtain ⟨x, hx, _, hb⟩ := (hdec _ _).1 he
      have : ∀ e ∈ [("d2".toList, ["b".toList]), ("d1".toList, ["a".toList])], "z".toList ∉ e.2 := by decide
      exact absurd hb (this x hx))
  exact ⟨inv', h1, h2⟩

/-- **C16 fails** for every path of the head with other content (and that is what adding a changed file
with duplicate detection does when the new content is already in the object). -/
theorem C16_full_fails_occupied {inv : Inv} {n : Nat} (hg : GapFree inv n) (hn : 0 < n)
    (hk : MapKeysOk inv) {p d d' : Str} (hm : ∃ m, (d, m) ∈ inv.manifest)
    (hp : HasFile inv inv.head p d') : ∃ inv', copyFile inv p d = .ok inv' ∧
      HasFile inv' inv.head p d ∧ HasFile inv' inv.head p d' := by
  obtain ⟨inv', h1, _, h2, _⟩ := C16_copy_exact hg hn hk (p := p) hm
  exact ⟨inv', h1, (h2 _ _).2 (Or.inr ⟨rfl, rfl⟩), (h2 _ _).2 (Or.inl hp)⟩

theorem C16_full_fails : ¬ C16_full := by
  intro h
  have hs : headState exInv = .ok [("d2".toList, ["b".toList]), ("d1".toList, ["a".toList])] := by decide
  have hdec := hasFile_head_decide exInv_gapFree.nodup hs
  have ha := (hdec "a".toList "d1".toList).2 (by decide)
  have hm : ∃ m, ("d2".toList, m) ∈ exInv.manifest := ⟨["v2/content/b".toList], by decide⟩
  obtain ⟨i, h1, h2, _⟩ := h exInv 2 "a".toList "d2".toList exInv_gapFree (by decide)
    exInv_mapKeysOk exInv_oneDigest hm
  obtain ⟨j, h3, _, h4⟩ := C16_full_fails_occupied exInv_gapFree (by decide) exInv_mapKeysOk hm ha
  rw [h1] at h3; cases h3
  exact absurd ((h2 _).1 h4) (by decide)

/-! ## C17 -/

/-- Logical path `p` lies in the area stored at `base` (the whole object for `.`). -/
def InArea (base p : Str) : Prop :=
  base = ".".toList ∨ p = base ∨ (base ++ "/".toList) <+: p

/-- **C17, full statement** (false). -/
def C17_full : Prop :=
  ∀ (inv : Inv) (n : Nat) (submitted : List Str) (base : Str), GapFree inv n → 0 < n → MapKeysOk inv →
    OneDigestPerPath inv → ∃ inv', objEchoDelete inv submitted base = .ok inv' ∧
      ∀ p d, HasFile inv' inv.head p d ↔ HasFile inv inv.head p d ∧ (InArea base p → p ∈ submitted)

/-- **C17, what the code does**: removed are exactly the unsubmitted paths which have the area's path as
string prefix. -/
theorem C17_mirror_exact {inv : Inv} {n : Nat} (hg : GapFree inv n) (hn : 0 < n)
    (submitted : List Str) (base : Str) :
    ∃ inv', objEchoDelete inv submitted base = .ok inv' ∧ inv'.head = inv.head ∧
      (∀ p d, HasFile inv' inv.head p d ↔
        HasFile inv inv.head p d ∧ ((base = ".".toList ∨ base <+: p) → p ∈ submitted)) ∧
      (∀ v, v ≠ inv.head → ∀ p d, HasFile inv' v p d ↔ HasFile inv v p d) ∧
      inv'.manifest = inv.manifest := by
  obtain ⟨s, hs⟩ := hg.headState hn
  have hmem : ∀ p, (bsearch (slicesCompact (sortStr submitted)) p).2 = true ↔ p ∈ submitted := by
    intro p
    rw [bsearch_found_iff _ _ ((sortStr_sorted submitted).sublist (slicesCompact_sublist _)),
      mem_slicesCompact, (sortStr_perm submitted).mem_iff]
  set pre := if base = ".".toList then ([] : Str) else base with hpre
  obtain ⟨i, s', e1, e2, e3, e4, e5, _⟩ := foldlM_delete hs
    ((statePaths s).filter (fun f => hasPrefix f pre &&
      !(bsearch (slicesCompact (sortStr submitted)) f).2))
  have hrun : objEchoDelete inv submitted base = .ok i := by
    unfold objEchoDelete echoDelete
    obtain ⟨v, hv, rfl⟩ := headState_eq_ok.1 hs
    rw [hv]; exact e1
  have hpp : ∀ p, hasPrefix p pre = true ↔ (base = ".".toList ∨ base <+: p) := by
    intro p
    unfold hasPrefix
    rw [List.isPrefixOf_iff_prefix, hpre]
    split
    · simp [*]
    · rename_i hb; constructor
      · exact Or.inr
      · rintro (h | h)
        · exact absurd h hb
        · exact h
  refine ⟨i, hrun, e3.head, ?_, fun v hv p d => e3.hasFile_other hg.nodup hv, e5⟩
  intro p d
  have := hasFile_head (e3.nodup hg.nodup) e2 (p := p) (d := d)
  rw [e3.head] at this
  rw [this, hasFile_head hg.nodup hs, e4]
  refine and_congr_right fun hin => ?_
  rw [List.mem_filter, not_and]
  have h1 : p ∈ statePaths s := mem_statePaths.2 ⟨d, hin⟩
  simp only [h1, true_implies, Bool.and_eq_true, Bool.not_eq_true', not_and, hpp]
  constructor
  · intro h hb
    have := h hb
    rw [Bool.not_eq_false] at this
    exact (hmem p).1 this
  · intro h hb
    rw [Bool.not_eq_false]; exact (hmem p).2 (h hb)

/-- **C17** if no path outside the area has the area's path as string prefix; in particular always when
the area is the whole object. -/
theorem C17_mirror_partial {inv : Inv} {n : Nat} (hg : GapFree inv n) (hn : 0 < n)
    (submitted : List Str) (base : Str)
    (hb : ∀ p, HasPath inv inv.head p → base <+: p → InArea base p) :
    ∃ inv', objEchoDelete inv submitted base = .ok inv' ∧
      ∀ p d, HasFile inv' inv.head p d ↔ HasFile inv inv.head p d ∧ (InArea base p → p ∈ submitted) := by
  obtain ⟨inv', h1, _, h2, _⟩ := C17_mirror_exact hg hn submitted base
  refine ⟨inv', h1, fun p d => ?_⟩
  rw [h2]
  refine and_congr_right fun hp => ?_
  have : (base = ".".toList ∨ base <+: p) ↔ InArea base p := by
    constructor
    · rintro (h | h)
      · exact Or.inl h
      · exact hb p ⟨d, hp⟩ h
    · rintro (h | rfl | h)
      · exact Or.inl h
      · exact Or.inr (List.prefix_refl _)
      · exact Or.inr ((List.prefix_append _ _).trans h)
  rw [this]

/-- **C17** for objects mirrored as a whole. -/
theorem C17_mirror_whole_object {inv : Inv} {n : Nat} (hg : GapFree inv n) (hn : 0 < n)
    (submitted : List Str) :
    ∃ inv', objEchoDelete inv submitted ".".toList = .ok inv' ∧
      ∀ p d, HasFile inv' inv.head p d ↔ HasFile inv inv.head p d ∧ p ∈ submitted := by
  obtain ⟨inv', h1, h2⟩ := C17_mirror_partial hg hn submitted ".".toList (fun p _ _ => Or.inl rfl)
  exact ⟨inv', h1, fun p d => by rw [h2]; simp [InArea]⟩

example : ∃ inv', objEchoDelete exInv ["b".toList, "zz".toList, "b".toList] ".".toList = .ok inv' ∧
    HasFile inv' exInv.head "b".toList "d2".toList ∧ ¬ HasFile inv' exInv.head "a".toList "d1".toList := by
  obtain ⟨inv', h1, h2⟩ := C17_mirror_whole_object exInv_gapFree (by decide)
    ["b".toList, "zz".toList, "b".toList]
  refine ⟨inv', h1, (h2 _ _).2 ⟨?_, by decide⟩, fun h => absurd ((h2 _ _).1 h).2 (by decide)⟩
  exact ⟨_, ["b".toList], List.mem_cons_self, List.mem_cons_self, by decide⟩

/-- **C17 fails** for every path outside the area that merely starts with the same letters. -/
theorem C17_full_fails_boundary {inv : Inv} {n : Nat} (hg : GapFree inv n) (hn : 0 < n)
    {submitted : List Str} {base p d : Str} (hp : HasFile inv inv.head p d) (hpre : base <+: p)
    (hns : p ∉ submitted) :
    ∃ inv', objEchoDelete inv submitted base = .ok inv' ∧ HasFile inv inv.head p d ∧
      ¬ HasFile inv' inv.head p d := by
  obtain ⟨inv', h1, _, h2, _⟩ := C17_mirror_exact hg hn submitted base
  exact ⟨inv', h1, hp, fun h => hns (((h2 _ _).1 h).2 (Or.inr hpre))⟩

/-- an object with a content area `data` and a metadata area `database` -/
def exArea : Inv :=
  { exInv with
    versions :=
      [("v2".toList, ⟨"t2".toList, "m2".toList, "u".toList, "x".toList,
          [("d2".toList, ["database/x".toList]), ("d1".toList, ["data/a".toList])]⟩),
       ("v1".toList, ⟨"t1".toList, "m1".toList, "u".toList, "x".toList, [("d1".toList, ["data/a".toList])]⟩)] }

theorem exArea_gapFree : GapFree exArea 2 := exInv_gapFree

theorem C17_full_fails : ¬ C17_full := by
  intro h
  have hs : headState exArea =
      .ok [("d2".toList, ["database/x".toList]), ("d1".toList, ["data/a".toList])] := by decide
  have hdec := hasFile_head_decide exArea_gapFree.nodup hs
  have hx := (hdec "database/x".toList "d2".toList).2 (by decide)
  have hk : MapKeysOk exArea := by
    have : ∀ e ∈ exArea.versions, (mkeys e.2.state).Nodup := by decide
    exact fun v ver h => this (v, ver) h
  have ho : OneDigestPerPath exArea := by
    have : ∀ e ∈ exArea.versions, (e.2.state.flatMap (·.2)).Nodup := by decide
    exact fun v ver h => this (v, ver) h
  obtain ⟨i, h1, h2⟩ := h exArea 2 ["data/a".toList] "data".toList exArea_gapFree (by decide) hk ho
  obtain ⟨j, h3, _, h4⟩ := C17_full_fails_boundary exArea_gapFree (by decide)
    (submitted := ["data/a".toList]) (base := "data".toList) hx (by decide) (by decide)
  rw [h1] at h3; cases h3
  refine h4 ((h2 _ _).2 ⟨hx, ?_⟩)
  rintro (h | h | h)
  · exact absurd h (by decide)
  · exact absurd h (by decide)
  · exact absurd h (by decide)

/-! ## C19 -/

/-- the recorded data a user relies on: manifest, fixity block, logical content of every version -/
structure SameData (a b : Inv) : Prop where
  manifest : b.manifest = a.manifest
  fixity : b.fixity = a.fixity
  files : ∀ v p d, HasFile b v p d ↔ HasFile a v p d

/-- **C19, full statement** (false): an operation (other than opening a version) that leaves the
inventory unflagged changes nothing. -/
def C19_full : Prop :=
  ∀ (inv inv' : Inv) (n : Nat) (op : Op), GapFree inv n → MapKeysOk inv → OneDigestPerPath inv →
    (∀ m u a t, op ≠ .newVersion m u a t) → step inv op = .ok inv' → inv'.modified = false →
    SameData inv inv'

theorem headOnly_files {a b : Inv} (hh : HeadOnly a b) (hn : (mkeys a.versions).Nodup) {s s' : DMap}
    (hs : headState a = .ok s) (hs' : headState b = .ok s') (h : ∀ p d, InSt s' p d ↔ InSt s p d) :
    ∀ v p d, HasFile b v p d ↔ HasFile a v p d := by
  intro v p d
  by_cases hv : v = a.head
  · subst hv
    have := hasFile_head (hh.nodup hn) hs' (p := p) (d := d)
    rw [hh.head] at this
    rw [this, hasFile_head hn hs, h]
  · exact hh.hasFile_other hn hv

theorem addFixity_unflagged {inv : Inv} {mp : Str} {c : Str × Str}
    (h : (addFixity inv mp c).modified = false) : addFixity inv mp c = inv := by
  unfold addFixity at h ⊢
  by_cases hc : c.1 = inv.digestAlg
  · rw [if_pos hc]
  · rw [if_neg hc] at h ⊢
    simp only at h ⊢
    split
    · rename_i hin
      have e1 : mset ((mget inv.fixity c.1).getD []) c.2 (mgetD ((mget inv.fixity c.1).getD []) c.2) =
          (mget inv.fixity c.1).getD [] := by
        cases hg : mget ((mget inv.fixity c.1).getD []) c.2 with
        | none => unfold mgetD at hin; rw [hg] at hin; simp at hin
        | some fs => unfold mgetD; rw [hg]; exact mset_mget_self hg
      rw [e1]
      cases hf : mget inv.fixity c.1 with
      | none => rw [hf] at hin; simp [mgetD] at hin
      | some m => rw [Option.getD_some, mset_mget_self hf]
    · rename_i hin
      rw [if_neg hin] at h; simp at h

theorem addFixity_modified (inv : Inv) (mp : Str) (c : Str × Str) (h : inv.modified = true) :
    (addFixity inv mp c).modified = true := by
  unfold addFixity
  split
  · exact h
  · simp only; split
    · exact h
    · rfl

theorem addFixity_fold_unflagged {cs : AMap Str Str} {inv : Inv} {mp : Str}
    (h : (cs.foldl (fun i c => addFixity i mp c) inv).modified = false) :
    cs.foldl (fun i c => addFixity i mp c) inv = inv := by
  induction cs generalizing inv with
  | nil => rfl
  | cons c cs ih =>
    rw [List.foldl_cons] at h ⊢
    have h1 := ih h
    rw [h1] at h ⊢
    exact addFixity_unflagged h

theorem addName_unflagged {inv inv' : Inv} {mp d p : Str} (hn : (mkeys inv.versions).Nodup)
    (h : addName inv mp d p = .ok inv') (hm : inv'.modified = false) :
    inv.modified = false ∧ inv'.fixity = inv.fixity ∧
      (∀ v q e, HasFile inv' v q e ↔ HasFile inv v q e) ∧
      alreadyExists inv p d = .ok true := by
  obtain ⟨s, dup, upd, hs, hdup, _, hs', _, hf, hmod, hh⟩ := addName_ok h
  rw [hm] at hmod
  have hmod := hmod.symm
  simp only [Bool.or_eq_false_iff, Bool.not_eq_false'] at hmod
  obtain ⟨⟨h1, h2⟩, h3⟩ := hmod
  subst h2; subst h3
  refine ⟨h1, hf, headOnly_files hh hn hs hs' ?_, hdup⟩
  intro q e
  rw [inSt_stAddName]; simp

/-- **C19**, what holds: an unflagged operation changes neither the fixity block nor the logical
content of any version, and it changes the manifest only when files are recorded all of which the
object already has. -/
theorem C19_unflagged_partial {inv inv' : Inv} {n : Nat} {op : Op} (hg : GapFree inv n)
    (hop : ∀ m u a t, op ≠ .newVersion m u a t) (h : step inv op = .ok inv')
    (hm : inv'.modified = false) :
    inv'.fixity = inv.fixity ∧ (∀ v p d, HasFile inv' v p d ↔ HasFile inv v p d) ∧
    (inv'.manifest = inv.manifest ∨ ∃ ns mp cs dig, op = .add ns mp cs ∧
      mget cs inv.digestAlg = some dig ∧ mp ≠ [] ∧
      ∀ p ∈ ns, ∃ i, (∀ v p d, HasFile i v p d ↔ HasFile inv v p d) ∧
        alreadyExists i p (toLower dig) = .ok true) := by
  have hn := hg.nodup
  cases op with
  | newVersion m u a t => exact absurd rfl (hop m u a t)
  | add ns mp cs =>
    obtain ⟨dig, hdig, hfold⟩ := addFile_ok h
    -- the fold never flagged anything, so neither did the fixity loop
    have key : ∀ (ns : List Str) (i : Inv), GapFree i n →
        ns.foldlM (fun i n => addName i mp (toLower dig) n) i = .ok inv' →
        i.modified = false ∧ inv'.fixity = i.fixity ∧
        (∀ v q e, HasFile inv' v q e ↔ HasFile i v q e) ∧
        ∀ p ∈ ns, ∃ j, (∀ v p d, HasFile j v p d ↔ HasFile i v p d) ∧
          alreadyExists j p (toLower dig) = .ok true := by
      intro ns
      induction ns with
      | nil => intro i _ h; cases h; exact ⟨hm, rfl, fun _ _ _ => Iff.rfl, by simp⟩
      | cons p ns ih =>
        intro i hi h
        rw [List.foldlM_cons] at h
        obtain ⟨j, hj, h⟩ := res_bind_eq_ok.1 h
        obtain ⟨a1, a2, a3, a4⟩ := ih j ((addName_headOnly hj).gapFree hi) h
        obtain ⟨b1, b2, b3, b4⟩ := addName_unflagged hi.nodup hj a1
        refine ⟨b1, a2.trans b2, fun v q e => (a3 v q e).trans (b3 v q e), ?_⟩
        intro q hq
        rcases List.mem_cons.1 hq with rfl | hq
        · exact ⟨i, fun _ _ _ => Iff.rfl, b4⟩
        · obtain ⟨j', h1, h2⟩ := a4 q hq
          exact ⟨j', fun v p d => (h1 v p d).trans (b3 v p d), h2⟩
    obtain ⟨_, _, _, _, f5⟩ := addFixity_fold inv mp cs
    obtain ⟨k1, k2, k3, k4⟩ := key ns _ (f5.gapFree hg) hfold
    have hfix := addFixity_fold_unflagged k1
    rw [hfix] at k2 k3 k4
    refine ⟨k2, k3, ?_⟩
    by_cases hmp : mp = []
    · left
      obtain ⟨dig', _, hman⟩ := addFile_manifest h
      rw [hman]
      have : ∀ (l : List Str) (m : DMap), l.foldl (fun m _ => manAdd m mp (toLower dig')) m = m := by
        intro l
        induction l with
        | nil => intro m; rfl
        | cons a l ih =>
          intro m
          rw [List.foldl_cons, ih]; unfold manAdd; simp [hmp]
      exact this _ _
    · exact Or.inr ⟨ns, mp, cs, dig, rfl, hdig, hmp, k4⟩
  | delete p =>
    have hman := deleteFile_manifest h
    obtain ⟨s, hs, he⟩ := deleteFile_ok h
    have hs' : headState inv' = .ok (stDelete s p) := by rw [he]; exact headState_set_modified hs _ _
    refine ⟨by rw [he]; simp, headOnly_files (deleteFile_headOnly h) hn hs hs' ?_, Or.inl hman⟩
    rw [he] at hm
    simp only [Bool.or_eq_false_iff, List.any_eq_false, decide_eq_true_eq] at hm
    intro q d
    rw [inSt_stDelete]
    refine ⟨fun h => h.2, fun hin => ⟨?_, hin⟩⟩
    rintro rfl
    obtain ⟨ps, h1, h2⟩ := hin
    exact hm.2 _ h1 h2
  | rename a b =>
    obtain ⟨s, hs, he⟩ := renameFile_ok h
    have hman : inv'.manifest = inv.manifest := by rw [he]; simp
    have hs' : headState inv' = .ok (stRename s a b) := by rw [he]; exact headState_set_modified hs _ _
    refine ⟨by rw [he]; simp, headOnly_files (renameFile_headOnly h) hn hs hs' ?_, Or.inl hman⟩
    rw [he] at hm
    simp only [Bool.or_eq_false_iff, List.any_eq_false, decide_eq_true_eq] at hm
    have hno : ∀ d, ¬ InSt s a d := by rintro d ⟨ps, h1, h2⟩; exact hm.2 _ h1 h2
    intro q d
    rw [inSt_stRename]
    constructor
    · rintro (⟨_, h⟩ | ⟨_, h⟩)
      · exact h
      · exact absurd h (hno d)
    · intro hin; exact Or.inl ⟨by rintro rfl; exact hno d hin, hin⟩
  | copy dest d =>
    obtain ⟨_, s, hs, ⟨_, he⟩ | ⟨_, he⟩⟩ := copyFile_ok h
    · rw [he]; exact ⟨rfl, fun _ _ _ => Iff.rfl, Or.inl rfl⟩
    · rw [he] at hm; cases hm
  | echo ex pre =>
    obtain ⟨s, hs, h⟩ := echoDelete_ok h
    obtain ⟨i, s', e1, e2, e3, e4, e5, e6, e7, _⟩ := foldlM_delete hs
      ((statePaths s).filter (fun f => hasPrefix f pre && !(bsearch ex f).2))
    rw [e1] at h; cases h
    refine ⟨e6, headOnly_files e3 hn hs e2 ?_, Or.inl e5⟩
    intro p d
    rw [e4]
    exact ⟨fun h => h.1, fun h => ⟨h, e7 hm p d h⟩⟩

example : ∀ inv', step exInv (.delete "nope".toList) = .ok inv' → inv'.modified = false →
    ∀ v p d, HasFile inv' v p d ↔ HasFile exInv v p d := fun _ h hm =>
  (C19_unflagged_partial exInv_gapFree (by simp) h hm).2.1
example : (step exInv (.delete "nope".toList)).toOption.any (fun i => !i.modified) = true := by decide

/-- **C19 fails** whenever a file the head already has with the same digest is recorded once more with a
content path: the manifest gets the content path, but the inventory is not flagged. -/
theorem C19_full_fails_duplicate {inv : Inv} {n : Nat} (hg : GapFree inv n) (hn : 0 < n)
    (ho : OneDigestPerPath inv) (hpad : inv.paddingLength ≤ 0)
    {p d mp : Str} (hp : HasFile inv inv.head p d) (hd : d ≠ []) (hlow : toLower d = d) (hmp : mp ≠ []) :
    ∃ inv', step inv (.add [p] mp [(inv.digestAlg, d)]) = .ok inv' ∧
      inv'.modified = inv.modified ∧
      mgetD inv'.manifest d = mgetD inv.manifest d ++ [mp] := by
  obtain ⟨s, hs⟩ := hg.headState hn
  have hl : LastHas inv n p d := (lastHas_head hg hn ho ⟨d, hp⟩).2 hp
  obtain ⟨b, hb1, hb2⟩ := C06_already_exists_exact hg ho hpad (p := p) hd
  rw [hb2.2 hl] at hb1
  obtain ⟨c, hc1, hc2⟩ := C07_is_update_exact hg ho hpad (p := p) hd
  have hcf : c = false := by
    cases hcc : c with
    | false => rfl
    | true =>
      obtain ⟨x, hx, hlx⟩ := hc2.1 hcc
      exact absurd (hlx.unique hg.nodup ho hl) hx
  subst hcf
  obtain ⟨inv', h1, _, h3, _, h5, _⟩ := addName_exists mp hs hb1 hc1
  refine ⟨inv', ?_, by rw [h5]; simp, ?_⟩
  · show addFile inv [p] mp [(inv.digestAlg, d)] = .ok inv'
    unfold addFile
    have e1 : mget [(inv.digestAlg, d)] inv.digestAlg = some d := by simp [mget]
    have e2 : addFixity inv mp (inv.digestAlg, d) = inv := by simp [addFixity]
    rw [e1]
    simp only [List.foldl_cons, List.foldl_nil, hlow]
    rw [e2, List.foldlM_cons, h1]; rfl
  · rw [h3]; unfold manAdd; rw [if_pos hmp]
    show (mget (mset _ _ _) _).getD [] = _
    rw [mget_mset_self]; rfl

theorem C19_full_fails : ¬ C19_full := by
  intro h
  have hs : headState exInv = .ok [("d2".toList, ["b".toList]), ("d1".toList, ["a".toList])] := by decide
  have hdec := hasFile_head_decide exInv_gapFree.nodup hs
  have ha := (hdec "a".toList "d1".toList).2 (by decide)
  obtain ⟨inv', h1, h2, h3⟩ := C19_full_fails_duplicate exInv_gapFree (by decide)
    exInv_oneDigest (by decide) ha (by decide) (by decide) (mp := "v2/content/a".toList) (by decide)
  have := (h exInv inv' 2 _ exInv_gapFree exInv_mapKeysOk exInv_oneDigest (by simp) h1
    (by rw [h2]; rfl)).manifest
  rw [this] at h3
  exact absurd h3 (by decide)

end Gocfl
