import Verif.Model.Detail
import Verif.Props.Display
import Verif.Props.FilesystemRead

/-!
# C160: the detail page of a file

What the page shows about a content: where it is stored, the names it has in the versions, and beside each name what the
filesystem extension recorded.
-/

namespace Gocfl

section
variable {M X : Type}

/-! ## What the filesystem extension reports -/

theorem fsNest_from (r : List (Str × FsLine M)) : ∀ (a : AMap Str (AMap Str (List (FsLine M)))) (d v : Str),
    (mget ((mget (r.foldl fsNestStep a) d).getD []) v).getD [] =
      (mget ((mget a d).getD []) v).getD [] ++ (r.filter (fun x => decide (x.1 = d ∧ x.2.version = v))).map (·.2) := by
  induction r with
  | nil => intro a d v; simp
  | cons x r ih =>
    intro a d v
    rw [List.foldl_cons, ih, List.filter_cons]
    unfold fsNestStep
    rw [mget_mset]
    by_cases hd : x.1 = d
    · rw [if_pos hd, Option.getD_some, mget_mset]
      subst hd
      by_cases hv : x.2.version = v
      · subst hv
        simp [List.append_assoc]
      · rw [if_neg hv]
        simp [hv]
    · rw [if_neg hd]
      simp [hd]

/-- the map of the extension: per digest and version the lines in their order -/
theorem fsNest_get (r : List (Str × FsLine M)) (d v : Str) : (mget ((mget (fsNest r) d).getD []) v).getD [] =
    (r.filter (fun x => decide (x.1 = d ∧ x.2.version = v))).map (·.2) := by
  have := fsNest_from r [] d v
  simpa [fsNest] using this

theorem fsNest_nodup (r : List (Str × FsLine M)) : (mkeys (fsNest r)).Nodup := by
  have : ∀ (r : List (Str × FsLine M)) (a : AMap Str (AMap Str (List (FsLine M)))), (mkeys a).Nodup →
      (mkeys (r.foldl fsNestStep a)).Nodup := by
    intro r
    induction r with
    | nil => intro a h; exact h
    | cons x r ih => intro a h; exact ih _ (mkeys_mset_nodup h _ _)
  exact this r [] List.nodup_nil

theorem mapM_flatten_filter {A : Type} {f : Str → Res (List A)} {P : A → Bool} {v : Str} : ∀ (l : List Str) (rs : List (List A)),
    l.Nodup → l.mapM f = .ok rs → (∀ v' ∈ l, v' ≠ v → ∀ x, f v' = .ok x → x.filter P = []) →
    (v ∉ l → rs.flatten.filter P = []) ∧ (v ∈ l → ∃ x, f v = .ok x ∧ rs.flatten.filter P = x.filter P) := by
  intro l
  induction l with
  | nil =>
    intro rs _ h _
    cases h
    exact ⟨fun _ => rfl, fun h => by cases h⟩
  | cons a l ih =>
    intro rs hn h hP
    rw [List.mapM_cons] at h
    obtain ⟨x, hx, h⟩ := res_bind_eq_ok.1 h
    obtain ⟨y, hy, h⟩ := res_bind_eq_ok.1 h
    cases h
    rw [List.nodup_cons] at hn
    obtain ⟨i1, i2⟩ := ih y hn.2 hy (fun v' hv' => hP v' (List.mem_cons_of_mem _ hv'))
    rw [List.flatten_cons, List.filter_append]
    constructor
    · intro hv
      rw [List.mem_cons, not_or] at hv
      rw [i1 hv.2, hP a (by simp) (fun e => hv.1 e.symm) x hx]
      rfl
    · intro hv
      by_cases ha : a = v
      · subst ha
        exact ⟨x, hx, by rw [i1 hn.1, List.append_nil]⟩
      · rcases List.mem_cons.1 hv with h | h
        · exact absurd h.symm ha
        · obtain ⟨z, h1, h2⟩ := i2 h
          exact ⟨z, h1, by rw [hP a (by simp) ha x hx, h2]; rfl⟩

/-- the lines of a version, for one digest -/
theorem fsMatch_filter {inv : Inv} {v d : Str} {ver : Version} {ls : List (FsLine M)} {x : List (Str × FsLine M)}
    (hv : mget inv.versions v = some ver) (hk : (mkeys ver.state).Nodup) (hl : ∀ l ∈ ls, l.version = v)
    (h : fsMatch inv v ls = .ok x) : (x.filter (fun x => decide (x.1 = d ∧ x.2.version = v))).map (·.2) =
      ls.filter (fun l => decide (l.path ∈ (mget ver.state d).getD [])) := by
  unfold fsMatch at h
  rw [hv] at h
  simp only at h
  split at h
  · cases h
  · cases h
    generalize ver.state = st at hk
    have one : ∀ (e : Str × List Str), ((((ls.filter (fun l => decide (l.path ∈ e.2))).map (fun l => (e.1, l))).filter
        (fun x => decide (x.1 = d ∧ x.2.version = v))).map (·.2)) =
        if e.1 = d then ls.filter (fun l => decide (l.path ∈ e.2)) else [] := by
      intro e
      split
      · rename_i hd
        rw [List.filter_eq_self.2]
        · rw [List.map_map]
          exact List.map_id _
        · intro y hy
          obtain ⟨l, hl', rfl⟩ := List.mem_map.1 hy
          exact decide_eq_true ⟨hd, hl l (List.mem_of_mem_filter hl')⟩
      · rename_i hd
        rw [List.filter_eq_nil_iff.2]
        · rfl
        · intro y hy
          obtain ⟨l, _, rfl⟩ := List.mem_map.1 hy
          simp [hd]
    induction st with
    | nil => simp
    | cons e st ih =>
      obtain ⟨k, ps⟩ := e
      rw [mkeys_cons, List.nodup_cons] at hk
      rw [List.flatMap_cons, List.filter_append, List.map_append, one, ih hk.2, mget_cons]
      simp only
      by_cases hd : k = d
      · subst hd
        rw [if_pos rfl, if_pos rfl, mget_eq_none_iff.2 hk.1]
        simp
      · rw [if_neg hd, if_neg hd]
        rfl

/-- The lines of a version say that they are of that version. -/
def OwnVersions (k : FsStore M) (s : RecSt (FsLine M)) (inv : Inv) (fs : FS) : Prop :=
  ∀ v ∈ mkeys inv.versions, ∀ ls, RecordsOf k s inv fs v ls → ∀ l ∈ ls, l.version = v

/-- what is shown beside a name -/
theorem reported_line {k : FsStore M} {s : RecSt (FsLine M)} {inv : Inv} {fs : FS} {r : List (Str × FsLine M)}
    (hn : (mkeys inv.versions).Nodup) (hk : MapKeysOk inv) (ho : OwnVersions k s inv fs)
    (h : fsMetadata k s inv fs = .ok r) {v q d : Str} (hf : HasFile inv v q d) (m : M) :
    lineFor ((mget ((mget (fsNest r) d).getD []) v).getD []) q = some m ↔
      ∃ ls, RecordsOf k s inv fs v ls ∧ lineFor ls q = some m := by
  rw [fsNest_get]
  unfold fsMetadata at h
  obtain ⟨rs, hrs, h⟩ := res_bind_eq_ok.1 h
  cases h
  obtain ⟨ver, ps, h1, h2, h3⟩ := hf
  have hv : v ∈ mkeys inv.versions := mem_mkeys_of_mem h1
  have hver := mget_of_mem hn h1
  have hst : (mget ver.state d).getD [] = ps := by rw [mget_of_mem (hk v ver h1) h2]; rfl
  have hother : ∀ v' ∈ mkeys inv.versions, v' ≠ v → ∀ x, (fun v => match mget s.buffer v with
        | some ls => fsMatch inv v ls
        | none =>
          match readJsonL k.c k.exts k.folder inv fs "filesystem".toList v k.cfg with
          | .error (.panic e) => .error (.panic e)
          | .error (.error _) => .ok []
          | .ok b => k.dec b >>= fun ls => fsMatch inv v ls) v' = .ok x →
      x.filter (fun x => decide (x.1 = d ∧ x.2.version = v)) = [] := by
    intro v' hv' hne x hx
    rw [List.filter_eq_nil_iff]
    rintro ⟨d', l⟩ hy
    have hlv : ∃ ls, RecordsOf k s inv fs v' ls ∧ l ∈ ls := by
      simp only at hx
      split at hx
      · rename_i ls hb
        exact ⟨ls, Or.inl hb, ((fsMatch_mem hn hx).1 hy).1⟩
      · rename_i hb
        split at hx
        · cases hx
        · cases hx; cases hy
        · rename_i b hrd
          obtain ⟨ls, hd, hx⟩ := res_bind_eq_ok.1 hx
          exact ⟨ls, Or.inr ⟨hb, b, hrd, hd⟩, ((fsMatch_mem hn hx).1 hy).1⟩
    obtain ⟨ls, h4, h5⟩ := hlv
    have := ho v' hv' ls h4 l h5
    simp [this, hne]
  obtain ⟨x, hx, hfl⟩ := (mapM_flatten_filter (v := v) _ rs hn hrs hother).2 hv
  rw [hfl]
  have key : ∀ ls, RecordsOf k s inv fs v ls → fsMatch inv v ls = .ok x →
      lineFor ((x.filter (fun x => decide (x.1 = d ∧ x.2.version = v))).map (·.2)) q = lineFor ls q := by
    intro ls hrec hm
    rw [fsMatch_filter hver (hk v ver h1) (ho v hv ls hrec) hm, hst]
    unfold lineFor
    rw [List.find?_filter]
    congr 2
    funext l
    by_cases hl : l.path = q
    · simp [hl, h3]
    · simp [hl]
  have uniq : ∀ ls ls', RecordsOf k s inv fs v ls → RecordsOf k s inv fs v ls' → ls = ls' := by
    rintro ls ls' (a | ⟨a, b, c, e⟩) (a' | ⟨a', b', c', e'⟩)
    · rw [a] at a'; exact Option.some.inj a'
    · rw [a] at a'; cases a'
    · rw [a] at a'; cases a'
    · rw [c] at c'; cases c'
      rw [e] at e'; cases e'; rfl
  split at hx
  · rename_i ls hb
    have hrec : RecordsOf k s inv fs v ls := Or.inl hb
    rw [key ls hrec hx]
    exact ⟨fun h => ⟨ls, hrec, h⟩, fun ⟨ls', h, h'⟩ => by rw [uniq ls ls' hrec h]; exact h'⟩
  · rename_i hb
    split at hx
    · cases hx
    · rename_i e hrd
      cases hx
      constructor
      · intro h; cases h
      · rintro ⟨ls, h, _⟩
        rcases h with h | ⟨_, b, h, _⟩
        · rw [hb] at h; cases h
        · rw [hrd] at h; cases h
    · rename_i b hrd
      obtain ⟨ls, hd, hx⟩ := res_bind_eq_ok.1 hx
      have hrec : RecordsOf k s inv fs v ls := Or.inr ⟨hb, b, hrd, hd⟩
      rw [key ls hrec hx]
      exact ⟨fun h => ⟨ls, hrec, h⟩, fun ⟨ls', h, h'⟩ => by rw [uniq ls ls' hrec h]; exact h'⟩

/-! ## The answers of several extensions -/

theorem mergeInner {V : Type} (name n d : Str) (m : AMap Str V) (hm : (mkeys m).Nodup) : ∀ acc : AMap Str (AMap Str V),
    (mget (m.foldl (fun a x => mset a x.1 (mset ((mget a x.1).getD []) name x.2)) acc) d).bind (mget · n) =
      if name = n then (mget m d).or ((mget acc d).bind (mget · n)) else (mget acc d).bind (mget · n) := by
  induction m with
  | nil => intro acc; simp
  | cons e m ih =>
    intro acc
    obtain ⟨k, x⟩ := e
    rw [mkeys_cons, List.nodup_cons] at hm
    rw [List.foldl_cons, ih hm.2, mget_cons]
    simp only
    rw [mget_mset]
    by_cases hk : k = d
    · subst hk
      rw [if_pos rfl, if_pos rfl, mget_eq_none_iff.2 hm.1]
      by_cases hn : name = n
      · subst hn
        simp
      · rw [if_neg hn, if_neg hn, Option.bind_some, mget_mset_ne _ hn]
        cases mget acc k <;> rfl
    · rw [if_neg hk, if_neg hk]

theorem mergeMeta_skip {V : Type} {n : Str} {exts : List (Str × Res (AMap Str V))} (hn : n ∉ exts.map (·.1)) :
    ∀ {acc em : AMap Str (AMap Str V)}, (∀ name m, (name, .ok m) ∈ exts → (mkeys m).Nodup) → mergeMeta exts acc = .ok em → ∀ d,
      (mget em d).bind (mget · n) = (mget acc d).bind (mget · n) := by
  induction exts with
  | nil => intro acc em _ h d; cases h; rfl
  | cons e exts ih =>
    intro acc em hk h d
    obtain ⟨name, r⟩ := e
    cases r with
    | error e => rw [mergeMeta] at h; cases h
    | ok m =>
      rw [mergeMeta] at h
      simp only [List.map_cons, List.mem_cons, not_or] at hn
      rw [ih hn.2 (fun a b c => hk a b (List.mem_cons_of_mem _ c)) h d,
        mergeInner name n d m (hk name m (by simp)), if_neg (fun e => hn.1 e.symm)]

/-- what one extension reports, among all of them -/
theorem mergeMeta_pick {V : Type} {n : Str} {pre post : List (Str × Res (AMap Str V))} {ans : AMap Str V}
    (h1 : n ∉ pre.map (·.1)) (h2 : n ∉ post.map (·.1)) {acc em : AMap Str (AMap Str V)}
    (hk : ∀ name m, (name, .ok m) ∈ pre ++ (n, .ok ans) :: post → (mkeys m).Nodup)
    (h : mergeMeta (pre ++ (n, .ok ans) :: post) acc = .ok em) (d : Str) :
    (mget em d).bind (mget · n) = (mget ans d).or ((mget acc d).bind (mget · n)) := by
  induction pre generalizing acc with
  | nil =>
    rw [List.nil_append, mergeMeta] at h
    rw [mergeMeta_skip h2 (fun a b c => hk a b (by simp [c])) h d, mergeInner n n d ans (hk n ans (by simp)), if_pos rfl]
  | cons e pre ih =>
    obtain ⟨name, r⟩ := e
    simp only [List.map_cons, List.mem_cons, not_or] at h1
    cases r with
    | error e => rw [List.cons_append, mergeMeta] at h; cases h
    | ok m =>
      rw [List.cons_append, mergeMeta] at h
      rw [ih h1.2 (fun a b c => hk a b (by rw [List.cons_append]; exact List.mem_cons_of_mem _ c)) h,
        mergeInner name n d m (hk name m (by simp)), if_neg (fun e => h1.1 e.symm)]

theorem mget_mapKey {K V W : Type} [DecidableEq K] (l : AMap K V) (f : K → V → W) (k : K) :
    mget (l.map (fun e => (e.1, f e.1 e.2))) k = (mget l k).map (f k) := by
  induction l with
  | nil => rfl
  | cons e l ih =>
    obtain ⟨a, b⟩ := e
    rw [List.map_cons, mget_cons, mget_cons]
    simp only
    by_cases h : a = k
    · subst h; simp
    · rw [if_neg h, if_neg h, ih]

/-! ## The page -/

/-- A line of the page: in version `v` the content has the name `q`, beside which `a` is shown. -/
def DetailPage.Row (P : DetailPage M) (v q : Str) (a : Option M) : Prop := ∃ l, mget P.names v = some l ∧ (q, a) ∈ l

/-- Among the lines recorded for a version, the first with the path says `m`. -/
def FirstSays (k : FsStore M) (s : RecSt (FsLine M)) (inv : Inv) (fs : FS) (v q : Str) (m : M) : Prop :=
  ∃ pre l post, RecordsOf k s inv fs v (pre ++ l :: post) ∧ l.path = q ∧ l.info = m ∧ ∀ l' ∈ pre, l'.path ≠ q

theorem firstSays_iff {k : FsStore M} {s : RecSt (FsLine M)} {inv : Inv} {fs : FS} {v q : Str} {m : M} :
    FirstSays k s inv fs v q m ↔ ∃ ls, RecordsOf k s inv fs v ls ∧ lineFor ls q = some m := by
  unfold FirstSays lineFor
  constructor
  · rintro ⟨pre, l, post, h1, h2, h3, h4⟩
    refine ⟨_, h1, ?_⟩
    rw [Option.map_eq_some_iff]
    refine ⟨l, ?_, h3⟩
    rw [List.find?_eq_some_iff_append]
    exact ⟨decide_eq_true h2, pre, post, rfl, fun l' hl' => by simp [h4 l' hl']⟩
  · rintro ⟨ls, h1, h2⟩
    obtain ⟨l, h2, h3⟩ := Option.map_eq_some_iff.1 h2
    obtain ⟨h4, pre, post, rfl, h5⟩ := List.find?_eq_some_iff_append.1 h2
    exact ⟨pre, l, post, h1, of_decide_eq_true h4, h3, fun l' hl' e => by have := h5 l' hl'; simp [e] at this⟩

/-- The page about the content `c` says what the inventory says, and beside the names what was recorded first. -/
structure RightDetail (k : FsStore M) (s : RecSt (FsLine M)) (inv : Inv) (fs : FS) (c : Str) (P : DetailPage M) : Prop where
  checksum : P.checksum = c
  alg : P.alg = inv.digestAlg
  internal : mget inv.manifest c = some P.internal
  names : ∀ v q, (∃ a, P.Row v q a) ↔ HasFile inv v q c
  attrs : ∀ v q a, P.Row v q a → ∀ m, a = some m ↔ FirstSays k s inv fs v q m

/-- the page, from the metadata -/
theorem detailPage_right {k : FsStore M} {s : RecSt (FsLine M)} {inv : Inv} {n : Nat} {fs : FS} (hg : GoodInv inv n)
    (ho : OwnVersions k s inv fs) {pre post : List (Str × Res (AMap Str (ExtVal M X)))} (h1 : fsExtName ∉ pre.map (·.1))
    (h2 : fsExtName ∉ post.map (·.1)) (hk : ∀ name m, (name, .ok m) ∈ pre ++ post → (mkeys m).Nodup)
    {m : ObjMeta (ExtVal M X)} (hm : objMetadata inv (pre ++ (fsExtName, fsReport k s inv fs) :: post) = .ok m) {c : Str}
    {P : DetailPage M} (hP : detailPage m c = some P) : RightDetail k s inv fs c P := by
  have hx := hg.exact hm
  unfold detailPage at hP
  obtain ⟨f, hf, rfl⟩ := Option.map_eq_some_iff.1 hP
  have hnames : ∀ v, mget (f.versionName.map (fun e => (e.1, e.2.map
      (fun q => (q, lineFor ((mget (fileLinesOf f) e.1).getD []) q))))) v =
      (mget f.versionName v).map (fun qs => qs.map (fun q => (q, lineFor ((mget (fileLinesOf f) v).getD []) q))) :=
    fun v => mget_mapKey f.versionName (fun v qs => qs.map (fun q => (q, lineFor ((mget (fileLinesOf f) v).getD []) q))) v
  refine ⟨rfl, hx.alg, ?_, ?_, ?_⟩
  · rw [← hx.files, hf]; rfl
  · intro v q
    rw [hx.names]
    unfold DetailPage.Row
    simp only [hnames]
    constructor
    · rintro ⟨a, l, hl, hq⟩
      obtain ⟨ps, h3, rfl⟩ := Option.map_eq_some_iff.1 hl
      obtain ⟨q', h4, h5⟩ := List.mem_map.1 hq
      cases h5
      exact ⟨f, ps, hf, h3, h4⟩
    · rintro ⟨f', ps, h3, h4, h5⟩
      rw [hf] at h3
      cases h3
      exact ⟨_, _, by rw [h4]; rfl, List.mem_map.2 ⟨q, h5, rfl⟩⟩
  · intro v q a hrow m'
    obtain ⟨l, hl, hq⟩ := hrow
    simp only [hnames] at hl
    obtain ⟨ps, h3, rfl⟩ := Option.map_eq_some_iff.1 hl
    obtain ⟨q', h4, h5⟩ := List.mem_map.1 hq
    cases h5
    have hfile : HasFile inv v q c := (hx.names v q c).2 ⟨f, ps, hf, h3, h4⟩
    obtain ⟨em, hem, rfl⟩ := objMetadata_ok hm
    -- the answer of the extension
    obtain ⟨r, hr, hrep⟩ : ∃ r, fsMetadata k s inv fs = .ok r ∧
        (fsReport k s inv fs : Res (AMap Str (ExtVal M X))) = .ok ((fsNest r).map (fun e => (e.1, .lines e.2))) := by
      cases hr : fsMetadata k s inv fs with
      | ok r => exact ⟨r, rfl, by unfold fsReport; rw [hr]; rfl⟩
      | error e =>
        exfalso
        have hrep : (fsReport k s inv fs : Res (AMap Str (ExtVal M X))) = .error e := by unfold fsReport; rw [hr]; rfl
        rw [hrep] at hem
        have : ∀ (pre : List (Str × Res (AMap Str (ExtVal M X)))) (acc : AMap Str (AMap Str (ExtVal M X))) (em),
            mergeMeta (pre ++ (fsExtName, .error e) :: post) acc = .ok em → False := by
          intro pre
          induction pre with
          | nil => intro acc em h; rw [List.nil_append, mergeMeta] at h; cases h
          | cons e' pre ih =>
            intro acc em h
            obtain ⟨nm, r'⟩ := e'
            cases r' with
            | error e => rw [List.cons_append, mergeMeta] at h; cases h
            | ok m => rw [List.cons_append, mergeMeta] at h; exact ih _ _ h
        exact this _ _ _ hem
    rw [hrep] at hem
    have hans : (mkeys ((fsNest r).map (fun e => (e.1, (ExtVal.lines e.2 : ExtVal M X))))).Nodup := by
      have := fsNest_nodup r
      unfold mkeys at this ⊢
      rw [List.map_map]
      exact this
    have hpick := mergeMeta_pick h1 h2 (acc := []) (fun name mm hmm => by
      rcases List.mem_append.1 hmm with hmm | hmm
      · exact hk name mm (List.mem_append_left _ hmm)
      · rcases List.mem_cons.1 hmm with hmm | hmm
        · injection hmm with a b
          injection b with b
          rw [b]; exact hans
        · exact hk name mm (List.mem_append_right _ hmm)) hem c
    simp only [mget_metaFiles hg.man] at hf
    obtain ⟨fnames, _, hf⟩ := Option.bind_eq_some_iff.1 hf
    split at hf
    · cases hf
    cases hf
    have hext : mget (fileMeta inv em c fnames).ext fsExtName = (mget em c).bind (mget · fsExtName) := by
      show mget ((mget em c).getD []) fsExtName = _
      cases mget em c <;> rfl
    have hlines : ∀ v, (mget (fileLinesOf (fileMeta inv em c fnames)) v).getD [] =
        (mget ((mget (fsNest r) c).getD []) v).getD [] := by
      intro v
      unfold fileLinesOf
      rw [hext, hpick, mget_mapKV]
      cases mget (fsNest r) c <;> rfl
    rw [hlines, firstSays_iff]
    exact reported_line hg.wf.1.nodup hg.wf.2 ho hr hfile m'

/-! ## A request -/

/-- what a server that has just been started answers -/
def freshDetail (E : DispEnv (ExtVal M X)) (fs : FS) (id c : Str) : DetailAns M :=
  match E.openId fs id with
  | .error (.error _) => .bad
  | .error (.panic _) => .panic
  | .ok o =>
    match E.metaOf fs o with
    | .error (.error _) => .bad
    | .error (.panic _) => .panic
    | .ok m =>
      match detailPage m c with
      | some p => .page o.inv.id p
      | none => .bad

/-- the answer about a file when what is kept is what is on disk -/
theorem detailServe_fresh {E : DispEnv (ExtVal M X)} {fs : FS} {s : DispSt (ExtVal M X)} (hk : OnDisk E fs s) (id c : Str) :
    (detailServe E fs id c s).2 = freshDetail E fs id c := by
  have fromMeta : ∀ (s : DispSt (ExtVal M X)) (o : OpenObj) (n : Nat), s.object = some o → E.openId fs id = .ok o →
      (match (untilUse E fs (.manifest id) (n + 2) (s, .getMeta)).2 with
        | .use =>
          match (untilUse E fs (.manifest id) (n + 2) (s, .getMeta)).1.metadata,
              (untilUse E fs (.manifest id) (n + 2) (s, .getMeta)).1.object with
          | some m, some o =>
            (match detailPage m c with
            | some p => DetailAns.page o.inv.id p
            | none => .bad)
          | _, _ => .panic
        | .done .bad => .bad
        | _ => .panic) = freshDetail E fs id c := by
    intro s o n ho hopen
    have h1 : untilUse E fs (.manifest id) (n + 2) (s, .getMeta) =
        untilUse E fs (.manifest id) (n + 1) (dispStep E fs (.manifest id) s .getMeta) := rfl
    have hdone : ∀ j (s : DispSt (ExtVal M X)) a, untilUse E fs (.manifest id) j (s, .done a) = (s, .done a) := by
      intro j
      induction j with
      | zero => intro s a; rfl
      | succ j ih => intro s a; rw [untilUse]; exact ih s a
    rw [h1]
    unfold freshDetail
    rw [hopen]
    simp only [dispStep, ho]
    cases hm : E.metaOf fs o with
    | ok m =>
      have h2 : ∀ x : DispSt (ExtVal M X), untilUse E fs (.manifest id) (n + 1) (x, .use) = (x, .use) := fun _ => rfl
      simp only [h2]
    | error e =>
      cases e with
      | error e => simp only [hdone]
      | panic e => simp only [hdone]
  unfold detailServe
  simp only
  have h0 : untilUse E fs (.manifest id) 4 (s, .start) = untilUse E fs (.manifest id) 3 (s, startReq (.manifest id) s) := rfl
  rw [h0]
  by_cases hl : startReq (.manifest id) s = .load
  · rw [hl]
    have h1 : untilUse E fs (.manifest id) 3 (s, .load) =
        untilUse E fs (.manifest id) 2 (dispStep E fs (.manifest id) s .load) := rfl
    rw [h1]
    cases ho : E.openId fs id with
    | ok o =>
      have h2 : dispStep E fs (.manifest id) s .load = (⟨some o, s.metadata⟩, .getMeta) := by
        simp only [dispStep, loadReq, ho]
      rw [h2]
      exact fromMeta ⟨some o, s.metadata⟩ o 0 rfl ho
    | error e =>
      cases e with
      | error e =>
        have h2 : dispStep E fs (.manifest id) s .load = (⟨none, s.metadata⟩, .done .bad) := by
          simp only [dispStep, loadReq, ho]
        rw [h2]
        unfold freshDetail
        rw [ho]
        rfl
      | panic e =>
        have h2 : dispStep E fs (.manifest id) s .load = (s, .done .panic) := by
          simp only [dispStep, loadReq, ho]
        rw [h2]
        unfold freshDetail
        rw [ho]
        rfl
  · obtain ⟨o, h1, h2, h3⟩ := startReq_kept hl
    have hid : o.inv.id = id := (Option.some.inj h2).symm
    obtain ⟨h4, h5⟩ := hk o h1
    rw [hid] at h4
    rcases h3 with ⟨_, h3⟩ | ⟨⟨m, hm⟩, h3⟩
    · rw [h3]
      exact fromMeta s o 1 h1 h4
    · rw [h3]
      have h6 : untilUse E fs (.manifest id) 3 (s, .use) = (s, .use) := rfl
      rw [h6]
      unfold freshDetail
      rw [h4]
      simp only [h5 m hm, hm, h1]
      cases detailPage m c <;> rfl

/-- what is kept after requests one after the other -/
def keptAfter {V : Type} (E : DispEnv V) (fs : FS) (rs : List DispReq) : DispSt V :=
  rs.foldl (fun s r => (serve E fs r s).1) DispSt.fresh

theorem keptAfter_onDisk {V : Type} {E : DispEnv V} {fs : FS} (hp : InPlace E fs) (hn : NoMetaPanic E) (rs : List DispReq) :
    OnDisk E fs (keptAfter E fs rs) := by
  have : ∀ (rs : List DispReq) (s : DispSt V), OnDisk E fs s → OnDisk E fs (rs.foldl (fun s r => (serve E fs r s).1) s) := by
    intro rs
    induction rs with
    | nil => intro s h; exact h
    | cons r rs ih => intro s h; exact ih _ (serve_kept hp hn h r).2
  exact this rs _ (kept_fresh E fs)

/-- **C160**: after any requests, each answered before the next one came, the page about the content `c` of the object `id` shows
the algorithm, the paths at which the content is stored, in each version just the names it has there, and beside a name what is
recorded first for that name and version. -/
theorem C160_page_partial {E : DispEnv (ExtVal M X)} {fs : FS} (hp : InPlace E fs) (hnp : NoMetaPanic E) (hg : GoodObjects E fs)
    {k : Str → FsStore M} {pre post : FS → Str → Inv → List (Str × Res (AMap Str (ExtVal M X)))}
    (hE : ∀ fs f inv, E.exts fs f inv = pre fs f inv ++ (fsExtName, fsReport (k f) recNew inv (subFS fs f)) :: post fs f inv)
    (h1 : ∀ fs f inv, fsExtName ∉ (pre fs f inv).map (·.1)) (h2 : ∀ fs f inv, fsExtName ∉ (post fs f inv).map (·.1))
    (hk : ∀ fs f inv name m, (name, .ok m) ∈ pre fs f inv ++ post fs f inv → (mkeys m).Nodup)
    (ho : ∀ f o, E.openFolder fs f = .ok o → OwnVersions (k f) recNew o.inv (subFS fs f))
    {rs : List DispReq} {id c shown : Str} {P : DetailPage M}
    (h : (detailServe E fs id c (keptAfter E fs rs)).2 = .page shown P) :
    ∃ o, E.openId fs id = .ok o ∧ shown = o.inv.id ∧ RightDetail (k o.folder) recNew o.inv (subFS fs o.folder) c P := by
  rw [detailServe_fresh (keptAfter_onDisk hp hnp rs)] at h
  unfold freshDetail at h
  cases hopen : E.openId fs id with
  | error e => rw [hopen] at h; cases e <;> cases h
  | ok o =>
    rw [hopen] at h
    simp only at h
    cases hm : E.metaOf fs o with
    | error e => rw [hm] at h; cases e <;> cases h
    | ok m =>
      rw [hm] at h
      simp only at h
      cases hd : detailPage m c with
      | none => rw [hd] at h; cases h
      | some p =>
        rw [hd] at h
        cases h
        have hfold : E.openFolder fs o.folder = .ok o := by
          unfold DispEnv.openId at hopen
          split at hopen
          · cases hopen
          · have : o.folder = (rootPath E.ls id).1 := by
              unfold DispEnv.openFolder at hopen
              obtain ⟨r, _, hopen⟩ := res_bind_eq_ok.1 hopen
              cases hopen; rfl
            rw [this]; exact hopen
        obtain ⟨n, hgi⟩ := hg _ _ hfold
        unfold DispEnv.metaOf at hm
        rw [hE] at hm
        exact ⟨o, rfl, rfl, detailPage_right hgi (ho _ _ hfold) (h1 _ _ _) (h2 _ _ _) (hk _ _ _) hm hd⟩

/-- and there is such a page for every content of the manifest -/
theorem C160_shown {E : DispEnv (ExtVal M X)} {fs : FS} (hp : InPlace E fs) (hnp : NoMetaPanic E) (hg : GoodObjects E fs)
    {id c : Str} {o : OpenObj} {m : ObjMeta (ExtVal M X)} (ho : E.openId fs id = .ok o) (hm : E.metaOf fs o = .ok m)
    (hc : (mget o.inv.manifest c).isSome) (rs : List DispReq) :
    ∃ P, (detailServe E fs id c (keptAfter E fs rs)).2 = .page o.inv.id P := by
  rw [detailServe_fresh (keptAfter_onDisk hp hnp rs)]
  unfold freshDetail
  rw [ho]
  simp only [hm]
  have hfold : E.openFolder fs o.folder = .ok o := by
    unfold DispEnv.openId at ho
    split at ho
    · cases ho
    · have : o.folder = (rootPath E.ls id).1 := by
        unfold DispEnv.openFolder at ho
        obtain ⟨r, _, ho⟩ := res_bind_eq_ok.1 ho
        cases ho; rfl
      rw [this]; exact ho
  obtain ⟨n, hgi⟩ := hg _ _ hfold
  have hx := hgi.exact hm
  have := hx.files c
  cases hf : mget m.files c with
  | none =>
    rw [hf] at this
    rw [← this] at hc
    cases hc
  | some f =>
    unfold detailPage
    rw [hf]
    exact ⟨_, rfl⟩

/-! ## After an update -/

/-- without folders, the lines recorded are those of the files -/
theorem addTree_lines {x : FsExt M} (hx : x.folders = []) {c : Bool} {area : Str} {n : Nat} (es : List SrcEntry) :
    ∀ {s : RecSt (FsLine M)} {o : Obj}, WF o.inv n → ∀ v l, l ∈ recLines (addTree x c area s o es).st v → l ∈ recLines s v ∨
      (v = o.inv.head ∧ l.version = v ∧ ∃ p d, .file p d ∈ es ∧ x.w.statePath p area = .ok l.path ∧ x.stat p = .ok l.info) := by
  have one : ∀ {s : RecSt (FsLine M)} {o : Obj}, WF o.inv n → ∀ e v l, l ∈ recLines (addEntry x c area s o e).st v →
      l ∈ recLines s v ∨ (v = o.inv.head ∧ l.version = v ∧ ∃ p d, e = .file p d ∧ x.w.statePath p area = .ok l.path ∧
        x.stat p = .ok l.info) := by
    intro s o hw e v l hl
    cases e with
    | dir p =>
      left
      simp only [addEntry] at hl
      split at hl
      · exact hl
      · split at hl
        · exact hl
        · unfold fsAfterDir at hl
          rw [if_pos hx] at hl
          exact hl
    | file p d =>
      have ha := objAdd_onlyAdds (w := x.w) (path := p) (area := area) (data := d) (c := c) hw
      simp only [addEntry] at hl
      split at hl
      · exact Or.inl hl
      · rename_i o' ho'
        rw [ho'] at ha
        have hh : o'.inv.head = o.inv.head := ha.inv.head
        split at hl
        · unfold fsAfterFile at hl
          split at hl
          · simp only [recBegin_lines] at hl; exact Or.inl hl
          · rename_i m hm
            split at hl
            · simp only [recBegin_lines] at hl; exact Or.inl hl
            · rename_i q hq
              unfold fsWrite at hl
              split at hl
              · simp only [recBegin_lines] at hl; exact Or.inl hl
              · rename_i s' hs'
                have hrw := recWrite_lines hs'
                by_cases hv : v = o'.inv.head
                · subst hv
                  have h1 := hrw.1
                  rw [recBegin_head, recBegin_lines] at h1
                  simp only at hl
                  rw [h1, List.mem_append, List.mem_singleton] at hl
                  rcases hl with hl | rfl
                  · exact Or.inl hl
                  · exact Or.inr ⟨hh, rfl, p, d, rfl, hq, hm⟩
                · have h2 := hrw.2.1 v (by rw [recBegin_head]; exact hv)
                  rw [recBegin_lines] at h2
                  simp only at hl
                  rw [h2] at hl
                  exact Or.inl hl
        · exact Or.inl hl
  induction es with
  | nil => intro s o _ v l h; exact Or.inl h
  | cons e es ih =>
    intro s o hw v l hl
    have ha := addEntry_onlyAdds (x := x) (c := c) (area := area) (s := s) hw e
    have h1 := one (s := s) hw e v l
    rw [addTree] at hl
    split at hl
    · rename_i s' o' err h'
      rw [h'] at h1
      rcases h1 hl with h | ⟨a, b, p, d, rfl, g⟩
      · exact Or.inl h
      · exact Or.inr ⟨a, b, p, d, by simp, g⟩
    · rename_i s' o' h'
      rw [h'] at h1 ha
      rcases ih (ha.wf n hw) v l hl with h | ⟨a, b, p, d, hp, g⟩
      · rcases h1 h with h | ⟨a, b, p, d, rfl, g⟩
        · exact Or.inl h
        · exact Or.inr ⟨a, b, p, d, by simp, g⟩
      · exact Or.inr ⟨a.trans ha.inv.head, b, p, d, by simp [hp], g⟩

/-- Metadata and page of a process that starts after the update `u` and finds the files `fs`. -/
def LaterPage (X : Type) (k : FsStore M) (u : FsOut M) (fs : FS) (c : Str) (P : DetailPage M) : Prop :=
  ∃ m : ObjMeta (ExtVal M X), objMetadata u.obj.inv [(fsExtName, fsReport k recNew u.obj.inv (applyOps fs u.obj.trace))] = .ok m ∧
    detailPage m c = some P

/-- The settings and the object are such that records are found again (C107). -/
structure FoundAgain (x : FsExt M) (k : FsStore M) (inv : Inv) (n : Nat) (u : FsOut M) (fs : FS) : Prop where
  wf : WF inv n
  cdir : ValidComp inv.contentDir
  alg : '/' ∉ inv.digestAlg
  place : ∃ subs : List SubPathExt, k.exts = subs.map SubPathExt.toPathExt ∧ MetaFindable subs k.cfg ∧ MetaClean subs k.cfg
  compr : k.c.Ok
  codec : ∀ ls, mget u.st.buffer u.obj.inv.head = some ls → ∃ d, k.c.unbr (k.enc ls) = some d ∧ k.dec d = .ok ls
  done : u.err = none
  modified : u.obj.inv.modified = true
  good : ∃ n, GoodInv u.obj.inv n
  older : ∀ v ∈ mkeys u.obj.inv.versions, v ≠ u.obj.inv.head → ∀ ls, RecordsOf k recNew u.obj.inv (applyOps fs u.obj.trace) v ls →
    ∀ l ∈ ls, l.version = v

/-- **C160, in full** (false): beside a name in the new version, the page of a later process shows the attributes of the last
file of the source that has the name. -/
def C160_full : Prop :=
  ∀ (M X : Type) (x : FsExt M) (k : FsStore M) (inv : Inv) (n : Nat) (v : VInfo) (echo : Bool) (area : Str) (es : List SrcEntry)
    (fs : FS) (c : Str) (P : DetailPage M), x.folders = [] →
    FoundAgain x k inv n (fsUpdate x k inv v echo false area es) fs →
    LaterPage X k (fsUpdate x k inv v echo false area es) fs c P →
    ∀ es1 p d es2 q a, es = es1 ++ .file p d :: es2 → x.w.statePath p area = .ok q →
      (∀ p' d', .file p' d' ∈ es2 → x.w.statePath p' area ≠ .ok q) →
      P.Row (fsUpdate x k inv v echo false area es).obj.inv.head q a → ∃ m, x.stat p = .ok m ∧ a = some m

/-- **C160, after an update** of files with different names in the version: beside the name of a file in the new version, a
later process shows the attributes of that file in the source. -/
theorem C160_attrs_partial {x : FsExt M} {k : FsStore M} {inv : Inv} {n : Nat} {v : VInfo} {echo : Bool} {area : Str}
    {es : List SrcEntry} {fs : FS} {c : Str} {P : DetailPage M} (hx : x.folders = [])
    (hF : FoundAgain x k inv n (fsUpdate x k inv v echo false area es) fs)
    (hP : LaterPage X k (fsUpdate x k inv v echo false area es) fs c P) {p q : Str} {d : Bytes} (hp : .file p d ∈ es)
    (hq : x.w.statePath p area = .ok q)
    (hone : ∀ p' d', .file p' d' ∈ es → x.w.statePath p' area = .ok q → p' = p) {a : Option M}
    (hrow : P.Row (fsUpdate x k inv v echo false area es).obj.inv.head q a) : ∃ m, x.stat p = .ok m ∧ a = some m := by
  obtain ⟨q', m, ls, g1, g2, g3, g4, g5, g6⟩ := fsUpdate_recorded hF.wf hF.done hp
  rw [hq] at g1
  cases g1
  refine ⟨m, g2, ?_⟩
  obtain ⟨subs, p1, p2, p3⟩ := hF.place
  have hrec := C107_read_back_partial (subs := subs) fs hF.wf hF.cdir hF.alg p1 p2 p3 hF.compr (hF.codec ls g3) hF.done hF.modified g3
  have hls : ∀ l ∈ ls, l.version = (fsUpdate x k inv v echo false area es).obj.inv.head ∧
      (l.path = q → l.info = m) := by
    intro l hl
    have hd := hF.done
    unfold fsUpdate at hd g3 ⊢
    split at hd
    · cases hd
    · rename_i o ho
      obtain ⟨i, hi, rfl⟩ := startUpdate_ok ho
      have hw1 := newVersion_ok_gapFree hF.wf.1 hF.wf.2 hi
      simp only [ho] at g3 ⊢
      split at hd
      · cases hd
      · rename_i s o' ho'
        simp only [ho'] at g3 ⊢
        have ha := addTree_onlyAdds (x := x) (c := false) (area := area) es (s := recNew) (o := ⟨i, [], echo, []⟩) hw1
        have hL := addTree_lines hx (c := false) (area := area) es (s := recNew) (o := ⟨i, [], echo, []⟩) hw1 o'.inv.head l
        rw [ho'] at ha hL
        obtain ⟨e1, _⟩ := fsEndUpdate_head (ha.wf _ hw1).1 (Nat.succ_pos n) hd
        rw [e1] at g3 ⊢
        rw [fsEndUpdate_buffer] at g3
        rcases hL (by unfold recLines; rw [g3]; exact hl) with h | ⟨_, h1, p', d', h2, h3, h4⟩
        · cases h
        · refine ⟨h1, fun hpath => ?_⟩
          rw [hpath] at h3
          rw [hone p' d' h2 h3, g2] at h4
          cases h4; rfl
  have uniq : ∀ ls', RecordsOf k recNew (fsUpdate x k inv v echo false area es).obj.inv
      (applyOps fs (fsUpdate x k inv v echo false area es).obj.trace)
      (fsUpdate x k inv v echo false area es).obj.inv.head ls' → ls' = ls := by
    intro ls' h
    rcases hrec with h' | ⟨_, b, h1, h2⟩
    · cases h'
    · rcases h with h | ⟨_, b', h3, h4⟩
      · cases h
      · rw [h1] at h3; cases h3
        rw [h2] at h4; cases h4; rfl
  have hown : OwnVersions k recNew (fsUpdate x k inv v echo false area es).obj.inv
      (applyOps fs (fsUpdate x k inv v echo false area es).obj.trace) := by
    intro v' hv' ls' hr' l hl
    by_cases hh : v' = (fsUpdate x k inv v echo false area es).obj.inv.head
    · subst hh
      rw [uniq ls' hr'] at hl
      exact (hls l hl).1
    · exact hF.older v' hv' hh ls' hr' l hl
  obtain ⟨mm, hm, hpg⟩ := hP
  obtain ⟨n', hg⟩ := hF.good
  have hR := detailPage_right (pre := []) (post := []) hg hown (by simp) (by simp) (by simp) hm hpg
  refine (hR.attrs _ _ _ hrow m).2 (firstSays_iff.2 ⟨ls, hrec, ?_⟩)
  unfold lineFor
  rw [Option.map_eq_some_iff]
  cases hfind : ls.find? (fun l => decide (l.path = q)) with
  | none =>
    have := List.find?_eq_none.1 hfind _ g4
    simp at this
  | some l =>
    have hpath : l.path = q := by simpa using List.find?_some hfind
    exact ⟨l, rfl, (hls l (List.mem_of_find?_eq_some hfind)).2 hpath⟩

end

/-! ## Examples -/

/-- an update of the object `a`; `sp`: the names of the files in the version -/
def detUpdate (sp : Str → Str) (es : List SrcEntry) : FsOut Nat :=
  fsUpdate ⟨{ exWorld4 with statePath := fun p _ => .ok (sp p) }, [], fun p => .ok p.length⟩ exFsStore2
    (dispInv "a".toList "d1".toList) ⟨[], [], [], []⟩ false false [] es

/-- two files with different names -/
def detTwo : FsOut Nat := detUpdate id [.file "n".toList [9], .file "long".toList [3]]

/-- `n` and `long` are called `q` in the version -/
def oneName (p : Str) : Str := if p = "n".toList ∨ p = "long".toList then "q".toList else p

/-- two files whose names in the version are the same -/
def detSame : FsOut Nat := detUpdate oneName [.file "n".toList [9], .file "long".toList [3]]

theorem detTwo_found : FoundAgain (⟨{ exWorld4 with statePath := fun p _ => .ok (id p) }, [], fun p => .ok p.length⟩ : FsExt Nat)
    exFsStore2 (dispInv "a".toList "d1".toList) 1 detTwo [] where
  wf := dispInv_good1.wf
  cdir := by unfold ValidComp; decide
  alg := by decide
  place := ⟨[exSub], rfl, exSub_findable, ⟨by intro h; exact absurd h (by decide), by intro h; exact absurd h (by decide)⟩⟩
  compr := exCompr_ok
  codec := by
    intro ls h
    have : mget detTwo.st.buffer detTwo.obj.inv.head =
        some [⟨"n".toList, "v2".toList, 1⟩, ⟨"long".toList, "v2".toList, 4⟩] := by decide
    rw [this] at h
    cases h
    exact ⟨_, rfl, by decide⟩
  done := by decide
  modified := by decide
  good := ⟨2, goodInv_of (by decide) (by decide) (by decide) (by decide) (by decide)⟩
  older := by
    intro v hv hne ls hr
    have h1 : ∀ v ∈ mkeys detTwo.obj.inv.versions, v ≠ detTwo.obj.inv.head → readJsonL exFsStore2.c exFsStore2.exts
        exFsStore2.folder detTwo.obj.inv (applyOps [] detTwo.obj.trace) "filesystem".toList v exFsStore2.cfg =
          .error (.error "cannot open") := by decide
    rcases hr with hr | ⟨_, b, hr, _⟩
    · cases hr
    · rw [h1 v hv hne] at hr; cases hr

theorem detSame_found :
    FoundAgain (⟨{ exWorld4 with statePath := fun p _ => .ok (oneName p) }, [], fun p => .ok p.length⟩ : FsExt Nat)
    exFsStore2 (dispInv "a".toList "d1".toList) 1 detSame [] where
  wf := dispInv_good1.wf
  cdir := by unfold ValidComp; decide
  alg := by decide
  place := ⟨[exSub], rfl, exSub_findable, ⟨by intro h; exact absurd h (by decide), by intro h; exact absurd h (by decide)⟩⟩
  compr := exCompr_ok
  codec := by
    intro ls h
    have : mget detSame.st.buffer detSame.obj.inv.head =
        some [⟨"q".toList, "v2".toList, 1⟩, ⟨"q".toList, "v2".toList, 4⟩] := by decide
    rw [this] at h
    cases h
    exact ⟨_, rfl, by decide⟩
  done := by decide
  modified := by decide
  good := ⟨2, goodInv_of (by decide) (by decide) (by decide) (by decide) (by decide)⟩
  older := by
    intro v hv hne ls hr
    have h1 : ∀ v ∈ mkeys detSame.obj.inv.versions, v ≠ detSame.obj.inv.head → readJsonL exFsStore2.c exFsStore2.exts
        exFsStore2.folder detSame.obj.inv (applyOps [] detSame.obj.trace) "filesystem".toList v exFsStore2.cfg =
          .error (.error "cannot open") := by decide
    rcases hr with hr | ⟨_, b, hr, _⟩
    · cases hr
    · rw [h1 v hv hne] at hr; cases hr

def detMeta (u : FsOut Nat) : Res (ObjMeta (ExtVal Nat Unit)) :=
  objMetadata u.obj.inv [(fsExtName, fsReport exFsStore2 recNew u.obj.inv (applyOps [] u.obj.trace))]

def detNames (u : FsOut Nat) (c v : Str) : Option (Option (List (Str × Option Nat))) :=
  match detMeta u with
  | .ok m => (detailPage m c).map (fun P => mget P.names v)
  | .error _ => none

theorem detNames_page {u : FsOut Nat} {c v : Str} {x : Option (List (Str × Option Nat))} (h : detNames u c v = some x) :
    ∃ P, LaterPage Unit exFsStore2 u [] c P ∧ mget P.names v = x := by
  unfold detNames at h
  split at h
  · rename_i m hm
    obtain ⟨P, h3, h4⟩ := Option.map_eq_some_iff.1 h
    exact ⟨P, ⟨m, hm, h3⟩, h4⟩
  · cases h

/-- beside a name there is the length of the name in the source -/
example (P : DetailPage Nat) (h : LaterPage Unit exFsStore2 detTwo [] "d3".toList P) (a : Option Nat)
    (hr : P.Row "v2".toList "long".toList a) : a = some 4 := by
  obtain ⟨m, h1, h2⟩ := C160_attrs_partial (M := Nat) (X := Unit) (v := ⟨[], [], [], []⟩) (echo := false) (area := [])
    (es := [.file "n".toList [9], .file "long".toList [3]]) rfl detTwo_found h (p := "long".toList) (d := [3]) (by simp) rfl
    (by
      intro p' d' hp' hq
      have : p' = "long".toList := by injection hq
      exact this) (show P.Row detTwo.obj.inv.head _ a from hr)
  cases h1
  exact h2

/-- there is such a page -/
example : ∃ P, LaterPage Unit exFsStore2 detTwo [] "d3".toList P ∧ P.Row "v2".toList "long".toList (some 4) := by
  obtain ⟨P, h1, h2⟩ := detNames_page (u := detTwo) (c := "d3".toList) (v := "v2".toList)
    (x := some [("long".toList, some 4)]) (by decide)
  exact ⟨P, h1, _, h2, by simp⟩

/-- **C160 does not hold in full**: two files of the source are stored under one name, the content is that of the second one, and
beside the name are the attributes of the first. -/
theorem C160_full_fails : ¬ C160_full := by
  intro hf
  obtain ⟨P, h1, h2⟩ := detNames_page (u := detSame) (c := "d3".toList) (v := "v2".toList)
    (x := some [("q".toList, some 1)]) (by decide +kernel)
  have hh : detSame.obj.inv.head = "v2".toList := by decide
  have hq : (⟨{ exWorld4 with statePath := fun p _ => .ok (oneName p) }, [], fun p => .ok p.length⟩ : FsExt Nat).w.statePath
      "long".toList [] = .ok "q".toList := by decide
  have hr : P.Row detSame.obj.inv.head "q".toList (some 1) := by rw [hh]; exact ⟨_, h2, by simp⟩
  obtain ⟨m, g1, g2⟩ := hf Nat Unit ⟨{ exWorld4 with statePath := fun p _ => .ok (oneName p) }, [], fun p => .ok p.length⟩
    exFsStore2 (dispInv "a".toList "d1".toList) 1 ⟨[], [], [], []⟩ false []
    [.file "n".toList [9], .file "long".toList [3]] [] "d3".toList P rfl detSame_found h1 [.file "n".toList [9]] "long".toList [3] []
    "q".toList (some 1) rfl hq (by intro _ _ h; cases h) hr
  cases g1
  cases g2

/-- records of the object `a` in the folder of the extension -/
def detFS : FS := ("a/extensions/NNNN-filesystem/m/filesystem_v1.jsonl".toList, encLines [⟨"a".toList, "v1".toList, 7⟩]) :: dispFS

def detStore : FsStore Nat := { exFsStore with enc := fun ls => 1 :: encLines ls, dec := fun b => .ok (decLines [] none b) }

def detEnv : DispEnv (ExtVal Nat Unit) :=
  { w := dispWorld, env := exEnv, plain := true, blank := ockInv, ls := flatLayout
    exts := fun fs f inv => [(fsExtName, fsReport detStore recNew inv (subFS fs f))] }

set_option maxRecDepth 20000 in
theorem detFS_inPlace0 : InPlace dispEnv detFS := inPlace_of rfl (by decide)

theorem detFS_inPlace : InPlace detEnv detFS := fun f o h => detFS_inPlace0 f o h

set_option maxRecDepth 20000 in
theorem detFS_objects : eachFolder dispEnv detFS
    (fun o => decide (o.folder = "a".toList ∧ o.inv = dispInv "a".toList "d1".toList ∨
      o.folder = "b".toList ∧ o.inv = dispInv "b".toList "d2".toList)) = true := by decide

theorem detFS_good : GoodObjects detEnv detFS := by
  intro f o ho
  rcases of_decide_eq_true (eachFolder_ok (E := dispEnv) rfl detFS_objects ho) with ⟨_, h⟩ | ⟨_, h⟩
  · exact ⟨1, by rw [h]; exact dispInv_good1⟩
  · exact ⟨1, by rw [h]; exact dispInv_good2⟩

theorem bindErr {A B : Type} {x : Res A} {f : A → Res B} {e : GoErr} (h : (x >>= f) = .error e) :
    x = .error e ∨ ∃ a, x = .ok a ∧ f a = .error e := by
  cases x with
  | ok a => exact Or.inr ⟨a, rfl, h⟩
  | error e' => rw [res_bind_err] at h; cases h; exact Or.inl rfl

theorem detStore_quiet (inv : Inv) (fs : FS) (e : String) : fsMetadata detStore recNew inv fs ≠ .error (.panic e) := by
  have hr : ∀ v e, readJsonL detStore.c detStore.exts detStore.folder inv fs "filesystem".toList v detStore.cfg ≠
      .error (.panic e) := by
    intro v e h
    have : readJsonL detStore.c detStore.exts detStore.folder inv fs "filesystem".toList v detStore.cfg =
        match mget fs (extPath (detStore.folder ++ '/' :: jsonlExtName "m".toList "filesystem".toList v [])) with
        | none => .error (.error "cannot open")
        | some data => .ok data := by
      show (match mget fs (extPath (detStore.folder ++ '/' :: jsonlExtName "m".toList "filesystem".toList v [])) with
        | none => Except.error (GoErr.error "cannot open")
        | some data => .ok data) = _
      rfl
    rw [this] at h
    split at h <;> cases h
  have hm : ∀ v ls e, fsMatch (M := Nat) inv v ls ≠ .error (.panic e) := by
    intro v ls e h
    unfold fsMatch at h
    split at h
    · cases h
    · split at h <;> cases h
  have hall : ∀ l : List Str, ∀ e, l.mapM (fun v =>
      match mget (recNew : RecSt (FsLine Nat)).buffer v with
      | some ls => fsMatch inv v ls
      | none =>
        match readJsonL detStore.c detStore.exts detStore.folder inv fs "filesystem".toList v detStore.cfg with
        | .error (.panic e) => .error (.panic e)
        | .error (.error _) => .ok []
        | .ok b => detStore.dec b >>= fun ls => fsMatch inv v ls) ≠ .error (.panic e) := by
    intro l
    induction l with
    | nil => intro e h; cases h
    | cons v l ih =>
      intro e h
      rw [List.mapM_cons] at h
      rcases bindErr h with h | ⟨x, _, h⟩
      · split at h
        · exact hm _ _ _ h
        · split at h
          · rename_i e' h'; exact hr _ _ h'
          · cases h
          · exact hm _ _ _ h
      · rcases bindErr h with h | ⟨y, _, h⟩
        · exact ih _ h
        · cases h
  intro h
  unfold fsMetadata at h
  rcases bindErr h with h | ⟨x, _, h⟩
  · exact hall _ _ h
  · cases h

theorem detEnv_noPanic : NoMetaPanic detEnv := by
  intro fs o e h
  unfold DispEnv.metaOf objMetadata at h
  rcases bindErr h with h | ⟨x, _, h⟩
  · have h : mergeMeta [(fsExtName, (fsReport detStore recNew o.inv (subFS fs o.folder) : Res (AMap Str (ExtVal Nat Unit))))] [] =
      .error (.panic e) := h
    cases hr : (fsReport detStore recNew o.inv (subFS fs o.folder) : Res (AMap Str (ExtVal Nat Unit))) with
    | ok m => rw [hr] at h; cases h
    | error e' =>
      rw [hr, mergeMeta] at h
      cases h
      unfold fsReport at hr
      rcases bindErr hr with hr | ⟨x, _, hr⟩
      · exact detStore_quiet _ _ _ hr
      · cases hr
  · cases h

/-- the page about the only content of `a`: one name in the first version, and beside it the number recorded -/
theorem detFS_own : ∀ f o, detEnv.openFolder detFS f = .ok o → OwnVersions detStore recNew o.inv (subFS detFS f) := by
  intro f o ho v hv ls hr l hl
  have hf : o.folder = f := by
    unfold DispEnv.openFolder at ho
    obtain ⟨r, _, ho⟩ := res_bind_eq_ok.1 ho
    cases ho; rfl
  rw [← hf] at hr
  rcases of_decide_eq_true (eachFolder_ok (E := dispEnv) rfl detFS_objects ho) with ⟨h1, h2⟩ | ⟨h1, h2⟩
  · rw [h1, h2] at hr
    rw [h2] at hv
    have hv : v = "v1".toList := by simpa [dispInv, mkeys] using hv
    subst hv
    rcases hr with hr | ⟨_, b, hr, hd⟩
    · cases hr
    · have : readJsonL detStore.c detStore.exts detStore.folder (dispInv "a".toList "d1".toList) (subFS detFS "a".toList)
          "filesystem".toList "v1".toList detStore.cfg = .ok (encLines [⟨"a".toList, "v1".toList, 7⟩]) := by decide
      rw [this] at hr
      cases hr
      have : detStore.dec (encLines [⟨"a".toList, "v1".toList, 7⟩]) = .ok [⟨"a".toList, "v1".toList, 7⟩] := by decide
      rw [this] at hd
      cases hd
      rw [List.mem_singleton] at hl
      rw [hl]
  · rw [h1, h2] at hr
    rw [h2] at hv
    have hv : v = "v1".toList := by simpa [dispInv, mkeys] using hv
    subst hv
    rcases hr with hr | ⟨_, b, hr, hd⟩
    · cases hr
    · have : readJsonL detStore.c detStore.exts detStore.folder (dispInv "b".toList "d2".toList) (subFS detFS "b".toList)
          "filesystem".toList "v1".toList detStore.cfg = .error (.error "cannot open") := by decide
      rw [this] at hr
      cases hr

/-- after a request for the object `b`, the page about the content of `a` is that of `a` -/
example (shown : Str) (P : DetailPage Nat)
    (h : (detailServe detEnv detFS "a".toList "d1".toList (keptAfter detEnv detFS [.manifest "b".toList])).2 = .page shown P) :
    ∃ o, detEnv.openId detFS "a".toList = .ok o ∧ shown = o.inv.id ∧
      RightDetail detStore recNew o.inv (subFS detFS o.folder) "d1".toList P :=
  C160_page_partial (k := fun _ => detStore) (pre := fun _ _ _ => []) (post := fun _ _ _ => []) detFS_inPlace detEnv_noPanic
    detFS_good (fun _ _ _ => rfl) (by simp) (by simp) (by simp) detFS_own h

set_option maxRecDepth 20000 in
example : (match (detailServe detEnv detFS "a".toList "d1".toList (keptAfter detEnv detFS [.manifest "b".toList])).2 with
    | .page shown P => decide (shown = "a".toList ∧ P.names = [("v1".toList, [("a".toList, some 7)])])
    | _ => false) = true := by decide

end Gocfl
