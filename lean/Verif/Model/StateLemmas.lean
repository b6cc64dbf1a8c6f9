import Verif.Model.InventoryLemmas

/-! # What the operations do to the logical content -/

namespace Gocfl

/-- `p` is listed under `d` in a state map. -/
def InSt (s : DMap) (p d : Str) : Prop := ∃ ps, (d, ps) ∈ s ∧ p ∈ ps

@[simp] theorem inSt_nil (p d : Str) : ¬ InSt [] p d := by rintro ⟨ps, h, _⟩; simp at h

theorem inSt_cons (e : Str × List Str) (s : DMap) (p d : Str) :
    InSt (e :: s) p d ↔ (d = e.1 ∧ p ∈ e.2) ∨ InSt s p d := by
  constructor
  · rintro ⟨ps, h, hp⟩
    rcases List.mem_cons.1 h with h | h
    · subst h; exact Or.inl ⟨rfl, hp⟩
    · exact Or.inr ⟨ps, h, hp⟩
  · rintro (⟨rfl, h⟩ | ⟨ps, h, hp⟩)
    · exact ⟨e.2, by simp, h⟩
    · exact ⟨ps, List.mem_cons_of_mem _ h, hp⟩

theorem inSt_append (s t : DMap) (p d : Str) : InSt (s ++ t) p d ↔ InSt s p d ∨ InSt t p d := by
  induction s with
  | nil => simp
  | cons e s ih => rw [List.cons_append, inSt_cons, inSt_cons, ih, or_assoc]

theorem mem_statePaths {s : DMap} {p : Str} : p ∈ statePaths s ↔ ∃ d, InSt s p d := by
  unfold statePaths InSt
  rw [List.mem_flatMap]
  constructor
  · rintro ⟨⟨d, ps⟩, h, hp⟩; exact ⟨d, ps, h, hp⟩
  · rintro ⟨d, ps, h, hp⟩; exact ⟨(d, ps), h, hp⟩

theorem inSt_stDelete (s : DMap) (q p d : Str) : InSt (stDelete s q) p d ↔ p ≠ q ∧ InSt s p d := by
  induction s with
  | nil => simp [stDelete]
  | cons e s ih =>
    have : stDelete (e :: s) q = (e.1, e.2.filter (fun x => !decide (x = q))) :: stDelete s q := rfl
    rw [this, inSt_cons, inSt_cons, ih]
    simp only [List.mem_filter, Bool.not_eq_true', decide_eq_false_iff_not]
    tauto

theorem inSt_stRename (s : DMap) (a b p d : Str) :
    InSt (stRename s a b) p d ↔ (p ≠ a ∧ InSt s p d) ∨ (p = b ∧ InSt s a d) := by
  induction s with
  | nil => simp [stRename]
  | cons e s ih =>
    have : stRename (e :: s) a b = (e.1, e.2.map (fun q => if q = a then b else q)) :: stRename s a b :=
      rfl
    rw [this, inSt_cons, inSt_cons, inSt_cons, ih]
    simp only [List.mem_map]
    constructor
    · rintro (⟨rfl, q, hq, he⟩ | h)
      · split at he
        · rename_i h; subst h he; exact Or.inr ⟨rfl, Or.inl ⟨rfl, hq⟩⟩
        · rename_i h; subst he; exact Or.inl ⟨h, Or.inl ⟨rfl, hq⟩⟩
      · tauto
    · rintro (⟨h, ⟨rfl, hq⟩ | hq⟩ | ⟨h, ⟨rfl, hq⟩ | hq⟩)
      · exact Or.inl ⟨rfl, p, hq, by simp [h]⟩
      · tauto
      · exact Or.inl ⟨rfl, a, hq, by simp [h]⟩
      · tauto

theorem inSt_stTouch (s : DMap) (e p d : Str) : InSt (stTouch s e) p d ↔ InSt s p d := by
  rcases stTouch_eq s e with h | ⟨_, h⟩
  · rw [h]
  · rw [h, inSt_append, inSt_cons]; simp

theorem mgetD_cons (e : Str × List Str) (s : DMap) (k : Str) :
    mgetD (e :: s) k = if e.1 = k then e.2 else mgetD s k := by
  unfold mgetD; rw [mget_cons]; split <;> rfl

theorem inSt_stAppend (s : DMap) (e q p d : Str) :
    InSt (stAppend s e q) p d ↔ InSt s p d ∨ (p = q ∧ d = e) := by
  unfold stAppend
  induction s with
  | nil => rw [show mset ([] : DMap) e (mgetD [] e ++ [q]) = [(e, [q])] from rfl, inSt_cons]; simp [and_comm]
  | cons x s ih =>
    obtain ⟨a, b⟩ := x
    rw [mgetD_cons]
    by_cases h : a = e
    · subst h
      simp only [mset, if_true]
      rw [inSt_cons, inSt_cons]
      simp only [List.mem_append, List.mem_singleton]
      tauto
    · simp only [mset, h, if_false]
      rw [inSt_cons, inSt_cons, ih, or_assoc]

theorem inSt_stAddName (s : DMap) (e q p d : Str) (dup upd : Bool) :
    InSt (stAddName s e q dup upd) p d ↔
      (InSt s p d ∧ (upd = true → p ≠ q)) ∨ (dup = false ∧ p = q ∧ d = e) := by
  have h2 : InSt (if upd = true then stDelete (stTouch s e) q else stTouch s e) p d ↔
      InSt s p d ∧ (upd = true → p ≠ q) := by
    cases upd
    · simp [inSt_stTouch]
    · simp [inSt_stDelete, inSt_stTouch, and_comm]
  cases dup with
  | true => rw [← h2]; simp [stAddName]
  | false => rw [← h2]; simp only [stAddName, Bool.false_eq_true, if_false]; rw [inSt_stAppend]; simp

/-! ## Duplicate paths -/

theorem statePaths_cons (e : Str × List Str) (s : DMap) : statePaths (e :: s) = e.2 ++ statePaths s := rfl

theorem statePaths_stDelete (s : DMap) (q : Str) :
    statePaths (stDelete s q) = (statePaths s).filter (fun x => !decide (x = q)) := by
  induction s with
  | nil => rfl
  | cons e s ih =>
    have : stDelete (e :: s) q = (e.1, e.2.filter (fun x => !decide (x = q))) :: stDelete s q := rfl
    rw [this, statePaths_cons, statePaths_cons, ih, List.filter_append]

theorem statePaths_stRename (s : DMap) (a b : Str) :
    statePaths (stRename s a b) = (statePaths s).map (fun q => if q = a then b else q) := by
  induction s with
  | nil => rfl
  | cons e s ih =>
    have : stRename (e :: s) a b = (e.1, e.2.map (fun q => if q = a then b else q)) :: stRename s a b :=
      rfl
    rw [this, statePaths_cons, statePaths_cons, ih, List.map_append]

theorem statePaths_stTouch (s : DMap) (d : Str) : statePaths (stTouch s d) = statePaths s := by
  rcases stTouch_eq s d with h | ⟨_, h⟩
  · rw [h]
  · rw [h]; simp [statePaths]

theorem statePaths_stAppend (s : DMap) (d p : Str) :
    (statePaths (stAppend s d p)).Perm (p :: statePaths s) := by
  unfold stAppend
  induction s with
  | nil => exact List.Perm.refl _
  | cons e s ih =>
    obtain ⟨a, b⟩ := e
    rw [mgetD_cons]
    by_cases h : a = d
    · subst h
      simp only [mset, if_true, statePaths_cons]
      have : (b ++ [p] ++ statePaths s) = b ++ p :: statePaths s := by simp
      rw [this]; exact List.perm_middle
    · simp only [mset, h, if_false, statePaths_cons]
      exact (List.Perm.append_left b ih).trans List.perm_middle

/-! ## The digest of a path -/

theorem digestOf_some {s : DMap} {p d : Str} (h : digestOf s p = some d) : InSt s p d := by
  induction s with
  | nil => simp [digestOf] at h
  | cons e s ih =>
    obtain ⟨a, b⟩ := e
    rw [inSt_cons]
    simp only [digestOf] at h
    split at h
    · rename_i hp; cases h; exact Or.inl ⟨rfl, hp⟩
    · exact Or.inr (ih h)

theorem digestOf_none {s : DMap} {p : Str} : digestOf s p = none ↔ ∀ d, ¬ InSt s p d := by
  induction s with
  | nil => simp [digestOf]
  | cons e s ih =>
    obtain ⟨a, b⟩ := e
    simp only [digestOf, inSt_cons]
    split
    · rename_i hp
      simp only [reduceCtorEq, false_iff, not_forall, not_not]
      exact ⟨a, Or.inl ⟨rfl, hp⟩⟩
    · rename_i hp
      rw [ih]; constructor
      · intro h d hd; rcases hd with ⟨_, h'⟩ | h'
        · exact hp h'
        · exact h d h'
      · intro h d hd; exact h d (Or.inr hd)

/-- If no path occurs twice, a path has at most one digest. -/
theorem inSt_unique {s : DMap} (hn : (statePaths s).Nodup) {p d d' : Str} (h : InSt s p d)
    (h' : InSt s p d') : d = d' := by
  induction s with
  | nil => exact absurd h (by simp)
  | cons e s ih =>
    rw [statePaths_cons, List.nodup_append] at hn
    rw [inSt_cons] at h h'
    rcases h with ⟨h1, h2⟩ | h
    · rcases h' with ⟨h1', _⟩ | h'
      · rw [h1, h1']
      · exact absurd rfl (hn.2.2 p h2 p (mem_statePaths.2 ⟨_, h'⟩))
    · rcases h' with ⟨_, h2'⟩ | h'
      · exact absurd rfl (hn.2.2 p h2' p (mem_statePaths.2 ⟨_, h⟩))
      · exact ih hn.2.1 h h'

theorem digestOf_eq_some_iff {s : DMap} (hn : (statePaths s).Nodup) {p d : Str} :
    digestOf s p = some d ↔ InSt s p d := by
  constructor
  · exact digestOf_some
  · intro h
    cases h' : digestOf s p with
    | none => exact absurd h (digestOf_none.1 h' d)
    | some d' => rw [inSt_unique hn h (digestOf_some h')]

/-! ## `HasFile` -/

theorem hasFile_iff {inv : Inv} (hn : (mkeys inv.versions).Nodup) {v p d : Str} :
    HasFile inv v p d ↔ ∃ ver, mget inv.versions v = some ver ∧ InSt ver.state p d := by
  constructor
  · rintro ⟨ver, ps, h1, h2, h3⟩; exact ⟨ver, mget_of_mem hn h1, ps, h2, h3⟩
  · rintro ⟨ver, h1, ps, h2, h3⟩; exact ⟨ver, ps, mem_of_mget h1, h2, h3⟩

theorem hasFile_head {inv : Inv} (hn : (mkeys inv.versions).Nodup) {s : DMap}
    (hs : headState inv = .ok s) {p d : Str} : HasFile inv inv.head p d ↔ InSt s p d := by
  obtain ⟨v, hv, rfl⟩ := headState_eq_ok.1 hs
  rw [hasFile_iff hn, hv]; simp

theorem HeadOnly.nodup {a b : Inv} (h : HeadOnly a b) (hn : (mkeys a.versions).Nodup) :
    (mkeys b.versions).Nodup := by rw [h.keys]; exact hn

theorem HeadOnly.hasFile_other {a b : Inv} (h : HeadOnly a b) (hn : (mkeys a.versions).Nodup)
    {v p d : Str} (hv : v ≠ a.head) : HasFile b v p d ↔ HasFile a v p d := by
  rw [hasFile_iff hn, hasFile_iff (h.nodup hn), h.other v hv]

theorem GapFree.headState {inv : Inv} {n : Nat} (h : GapFree inv n) (hn : 0 < n) :
    ∃ s, headState inv = .ok s := by
  obtain ⟨ver, hver⟩ := h.head_version hn
  exact ⟨ver.state, headState_eq_ok.2 ⟨ver, hver, rfl⟩⟩

/-! ## `lastDigest` -/

/-- the digest (first found) of `p` in version number `k` -/
def digestAt (inv : Inv) (k : Nat) (p : Str) : Option Str :=
  (mget inv.versions (verName inv.paddingLength (k : Int))).bind (fun ver => digestOf ver.state p)

theorem mget_filterMap {vs : AMap Str Version} (hn : (mkeys vs).Nodup) (p v : Str) :
    mget (vs.filterMap (fun e => (digestOf e.2.state p).map (fun d => (e.1, d)))) v =
      (mget vs v).bind (fun ver => digestOf ver.state p) := by
  induction vs with
  | nil => simp
  | cons e vs ih =>
    rw [mkeys_cons, List.nodup_cons] at hn
    rw [List.filterMap_cons, mget_cons]
    by_cases hv : e.1 = v
    · subst hv
      simp only [if_true, Option.bind_some]
      cases hd : digestOf e.2.state p with
      | none =>
        simp only [Option.map_none]
        rw [ih hn.2, mget_eq_none_iff.2 hn.1]; rfl
      | some d => simp [mget_cons]
    · simp only [hv, if_false]
      cases hd : digestOf e.2.state p with
      | none => simpa using ih hn.2
      | some d => simp only [Option.map_some, mget_cons, hv, if_false]; exact ih hn.2

theorem mkeys_pathDigests_sublist (inv : Inv) (p : Str) :
    (mkeys (pathDigests inv p)).Sublist (mkeys inv.versions) := by
  unfold pathDigests
  induction inv.versions with
  | nil => simp
  | cons e vs ih =>
    rw [List.filterMap_cons]
    cases digestOf e.2.state p with
    | none => exact ih.trans (List.sublist_cons_self _ _)
    | some d => simpa using ih

theorem mem_pathDigests_keys {inv : Inv} {n : Nat} (h : GapFree inv n) {p v : Str} :
    v ∈ mkeys (pathDigests inv p) ↔
      ∃ k : Nat, 1 ≤ k ∧ k ≤ n ∧ v = verName inv.paddingLength (k : Int) ∧ ∃ d, digestAt inv k p = some d := by
  constructor
  · intro hv
    obtain ⟨k, h1, h2, rfl⟩ := h.mem_keys.1 ((mkeys_pathDigests_sublist inv p).subset hv)
    refine ⟨k, h1, h2, rfl, ?_⟩
    have := mget_isSome_iff.2 hv
    unfold pathDigests at this
    rw [mget_filterMap h.nodup] at this
    exact Option.isSome_iff_exists.1 this
  · rintro ⟨k, h1, h2, rfl, d, hd⟩
    apply mget_isSome_iff.1
    unfold pathDigests
    rw [mget_filterMap h.nodup]
    unfold digestAt at hd
    rw [hd]; rfl

theorem mapM_eq_some {α β : Type} {f : α → Option β} {g : α → β} {l : List α}
    (h : ∀ a ∈ l, f a = some (g a)) : l.mapM f = some (l.map g) := by
  induction l with
  | nil => rfl
  | cons a l ih =>
    rw [List.mapM_cons, h a (by simp), ih (fun b hb => h b (by simp [hb]))]; rfl

theorem getLastD_sorted_max {l : List Int} {m : Int} (hm : m ∈ l) (hmax : ∀ x ∈ l, x ≤ m) :
    (sortInt l).getLastD 0 = m := by
  have hp := sortInt_perm l
  have hs := sortInt_sorted l
  have hne : sortInt l ≠ [] := by
    intro he; rw [he] at hp; rw [← List.Perm.nil_eq hp] at hm; simp at hm
  rw [List.getLastD_eq_getLast?, List.getLast?_eq_some_getLast hne, Option.getD_some]
  have h1 : (sortInt l).getLast hne ≤ m := hmax _ (hp.mem_iff.1 (List.getLast_mem hne))
  have h2 : m ≤ (sortInt l).getLast hne := by
    have hm' : m ∈ sortInt l := hp.mem_iff.2 hm
    rw [← List.dropLast_append_getLast hne] at hm' hs
    rcases List.mem_append.1 hm' with h | h
    · exact (List.pairwise_append.1 hs).2.2 m h _ (by simp)
    · simp at h; omega
  omega

/-- the number of a version name, total -/
def vNum (v : Str) : Int := (vNumber v).getD 0

theorem vNum_verName (pad : Int) (n : Nat) : vNum (verName pad (n : Int)) = n := by
  simp [vNum, vNumber_verName]

theorem lastDigest_none {inv : Inv} {n : Nat} (h : GapFree inv n) {p : Str}
    (hno : ∀ k, 1 ≤ k → k ≤ n → digestAt inv k p = none) : lastDigest inv p = .ok none := by
  have : pathDigests inv p = [] := by
    cases hc : pathDigests inv p with
    | nil => rfl
    | cons e c =>
      have : e.1 ∈ mkeys (pathDigests inv p) := by rw [hc]; simp
      obtain ⟨k, h1, h2, _, d, hd⟩ := (mem_pathDigests_keys h).1 this
      rw [hno k h1 h2] at hd; cases hd
  simp [lastDigest, this]

/-- The version number looked up by `lastDigest` is that of the last version having the path. -/
theorem lastDigest_at {inv : Inv} {n : Nat} (h : GapFree inv n) {p d : Str} {k : Nat}
    (h1 : 1 ≤ k) (h2 : k ≤ n) (hd : digestAt inv k p = some d)
    (hlast : ∀ j, k < j → j ≤ n → digestAt inv j p = none) :
    lastDigest inv p =
      match mget (pathDigests inv p) ('v' :: fmtNat k) with
      | none => .error (.error "could not get checksum")
      | some d => .ok (some d) := by
  have hne : pathDigests inv p ≠ [] := by
    intro he
    have := (mem_pathDigests_keys h (v := verName inv.paddingLength (k : Int))).2
      ⟨k, h1, h2, rfl, d, hd⟩
    rw [he] at this; simp at this
  have hmap : (mkeys (pathDigests inv p)).mapM vNumber =
      some ((mkeys (pathDigests inv p)).map vNum) := by
    apply mapM_eq_some
    intro v hv
    obtain ⟨j, _, _, rfl, _⟩ := (mem_pathDigests_keys h).1 hv
    rw [vNumber_verName, vNum_verName]
  have hmax : (sortInt ((mkeys (pathDigests inv p)).map vNum)).getLastD 0 = (k : Int) := by
    apply getLastD_sorted_max
    · exact List.mem_map.2 ⟨_, (mem_pathDigests_keys h).2 ⟨k, h1, h2, rfl, d, hd⟩, vNum_verName _ _⟩
    · intro x hx
      obtain ⟨v, hv, rfl⟩ := List.mem_map.1 hx
      obtain ⟨j, h1', h2', rfl, d', hd'⟩ := (mem_pathDigests_keys h).1 hv
      rw [vNum_verName]
      by_contra hc
      rw [hlast j (by omega) h2'] at hd'; cases hd'
  unfold lastDigest
  simp only [hne, if_false, hmap, hmax, fmtInt_natCast]
  cases mget (pathDigests inv p) ('v' :: fmtNat k) <;> rfl

theorem lastDigest_some {inv : Inv} {n : Nat} (h : GapFree inv n) (hpad : inv.paddingLength ≤ 0)
    {p d : Str} {k : Nat} (h1 : 1 ≤ k) (h2 : k ≤ n) (hd : digestAt inv k p = some d)
    (hlast : ∀ j, k < j → j ≤ n → digestAt inv j p = none) :
    lastDigest inv p = .ok (some d) := by
  rw [lastDigest_at h h1 h2 hd hlast]
  have : mget (pathDigests inv p) ('v' :: fmtNat k) = some d := by
    unfold pathDigests
    rw [mget_filterMap h.nodup, ← verName_unpadded hpad]
    exact hd
  rw [this]

theorem verName_padded_ne {pad : Int} (hpad : 0 < pad) (n : Int) {k : Nat} (hk : 0 < k) :
    verName pad n ≠ 'v' :: fmtNat k := by
  obtain ⟨c, t, he, hc⟩ := fmtNat_head_ne_zero hk
  unfold verName
  rw [if_neg (by omega), he]
  intro h
  rw [List.cons.injEq, List.cons.injEq] at h
  exact hc h.2.1.symm

/-- On a zero-padded object the question fails for every path that was ever recorded. -/
theorem lastDigest_padded {inv : Inv} {n : Nat} (h : GapFree inv n) (hpad : 0 < inv.paddingLength)
    {p d : Str} {k : Nat} (h1 : 1 ≤ k) (h2 : k ≤ n) (hd : digestAt inv k p = some d) :
    lastDigest inv p = .error (.error "could not get checksum") := by
  -- take the largest such version
  obtain ⟨m, hm1, hm2, ⟨d', hd'⟩, hml⟩ : ∃ m, 1 ≤ m ∧ m ≤ n ∧ (∃ d, digestAt inv m p = some d) ∧
      ∀ j, m < j → j ≤ n → digestAt inv j p = none := by
    have key : ∀ r, ∀ k, 1 ≤ k → k ≤ n → n - k ≤ r → (∃ d, digestAt inv k p = some d) →
        ∃ m, 1 ≤ m ∧ m ≤ n ∧ (∃ d, digestAt inv m p = some d) ∧
          ∀ j, m < j → j ≤ n → digestAt inv j p = none := by
      intro r
      induction r with
      | zero =>
        intro k h1 h2 hr hd
        exact ⟨k, h1, h2, hd, fun j hj hj' => absurd hj' (by omega)⟩
      | succ r ih =>
        intro k h1 h2 hr hd
        by_cases hc : ∃ j, k < j ∧ j ≤ n ∧ ∃ d, digestAt inv j p = some d
        · obtain ⟨j, hj, hj', hdj⟩ := hc
          exact ih j (by omega) hj' (by omega) hdj
        · refine ⟨k, h1, h2, hd, fun j hj hj' => ?_⟩
          cases hx : digestAt inv j p with
          | none => rfl
          | some x => exact absurd ⟨j, hj, hj', x, hx⟩ hc
    exact key _ k h1 h2 (le_refl _) ⟨d, hd⟩
  rw [lastDigest_at h hm1 hm2 hd' hml]
  have : mget (pathDigests inv p) ('v' :: fmtNat m) = none := by
    rw [mget_eq_none_iff]
    intro hv
    obtain ⟨j, _, _, he, _⟩ := (mem_pathDigests_keys h).1 hv
    exact verName_padded_ne hpad _ (by omega) he.symm
  rw [this]

/-- There is a last version with the path, or none. -/
theorem last_or_none (inv : Inv) (n : Nat) (p : Str) :
    (∀ k, 1 ≤ k → k ≤ n → digestAt inv k p = none) ∨
    ∃ k d, 1 ≤ k ∧ k ≤ n ∧ digestAt inv k p = some d ∧
      ∀ j, k < j → j ≤ n → digestAt inv j p = none := by
  induction n with
  | zero => left; intro k h1 h2; omega
  | succ n ih =>
    cases hn : digestAt inv (n + 1) p with
    | some d => exact Or.inr ⟨n + 1, d, by omega, by omega, hn, fun j h1 h2 => by omega⟩
    | none =>
      rcases ih with h | ⟨k, d, h1, h2, h3, h4⟩
      · left; intro k h1 h2
        by_cases hk : k = n + 1
        · rw [hk]; exact hn
        · exact h k h1 (by omega)
      · refine Or.inr ⟨k, d, h1, by omega, h3, ?_⟩
        intro j hj hj'
        by_cases hk : j = n + 1
        · rw [hk]; exact hn
        · exact h4 j hj (by omega)

theorem digestAt_head {inv : Inv} {n : Nat} (h : GapFree inv n) (hn : 0 < n) {s : DMap}
    (hs : headState inv = .ok s) (p : Str) : digestAt inv n p = digestOf s p := by
  obtain ⟨v, hv, rfl⟩ := headState_eq_ok.1 hs
  unfold digestAt
  rw [← h.head_eq hn, hv]; rfl

/-- `lastDigest` in case of success, for any padding. -/
theorem lastDigest_ok {inv : Inv} {n : Nat} (h : GapFree inv n) {p : Str} {r : Option Str}
    (hr : lastDigest inv p = .ok r) :
    (r = none ∧ ∀ k, 1 ≤ k → k ≤ n → digestAt inv k p = none) ∨
    ∃ k d, r = some d ∧ 1 ≤ k ∧ k ≤ n ∧ digestAt inv k p = some d ∧
      ∀ j, k < j → j ≤ n → digestAt inv j p = none := by
  rcases last_or_none inv n p with hno | ⟨k, d, h1, h2, hd, hlast⟩
  · rw [lastDigest_none h hno] at hr; cases hr; exact Or.inl ⟨rfl, hno⟩
  · by_cases hpad : inv.paddingLength ≤ 0
    · rw [lastDigest_some h hpad h1 h2 hd hlast] at hr; cases hr
      exact Or.inr ⟨k, d, rfl, h1, h2, hd, hlast⟩
    · rw [lastDigest_padded h (by omega) h1 h2 hd] at hr; cases hr

/-- If the head has the path, the last digest is the one in the head. -/
theorem lastDigest_head {inv : Inv} {n : Nat} (h : GapFree inv n) (hn : 0 < n) {s : DMap}
    (hs : headState inv = .ok s) {p d : Str} (hd : digestOf s p = some d) {r : Option Str}
    (hr : lastDigest inv p = .ok r) : r = some d := by
  rw [← digestAt_head h hn hs] at hd
  rcases lastDigest_ok h hr with ⟨_, hno⟩ | ⟨k, d', rfl, h1, h2, hd', hlast⟩
  · rw [hno n hn (le_refl _)] at hd; cases hd
  · rcases Nat.lt_or_eq_of_le h2 with hk | rfl
    · rw [hlast n hk (le_refl _)] at hd; cases hd
    · rw [hd'] at hd; exact hd

theorem alreadyExists_ok {inv : Inv} {p d : Str} (hd : d ≠ []) {b : Bool} :
    alreadyExists inv p d = .ok b ↔ ∃ r, lastDigest inv p = .ok r ∧ b = decide (r = some d) := by
  unfold alreadyExists
  simp only [hd, if_false]
  rw [res_bind_eq_ok]
  constructor
  · rintro ⟨r, hr, h⟩
    refine ⟨r, hr, ?_⟩
    cases r with
    | none => cases h; simp
    | some x => cases h; simp
  · rintro ⟨r, hr, rfl⟩
    refine ⟨r, hr, ?_⟩
    cases r with
    | none => simp
    | some x => simp

theorem isUpdate_ok {inv : Inv} {p d : Str} (hd : d ≠ []) {b : Bool} :
    isUpdate inv p d = .ok b ↔
      ∃ r, lastDigest inv p = .ok r ∧ b = decide (∃ x, r = some x ∧ x ≠ d) := by
  unfold isUpdate
  simp only [hd, if_false]
  rw [res_bind_eq_ok]
  constructor
  · rintro ⟨r, hr, h⟩
    refine ⟨r, hr, ?_⟩
    cases r with
    | none => cases h; simp
    | some x => cases h; simp
  · rintro ⟨r, hr, rfl⟩
    refine ⟨r, hr, ?_⟩
    cases r with
    | none => simp
    | some x => simp

end Gocfl
