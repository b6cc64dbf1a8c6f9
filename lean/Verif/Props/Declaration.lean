import Verif.Model.Declaration

/-!
# C59: conformance declarations
-/

namespace Gocfl

/-! ## Specification: what a declaration is -/

/-- a version number: digits, dot, digits -/
def IsVersionNum (v : Str) : Prop :=
  ∃ a b : Str, a ≠ [] ∧ b ≠ [] ∧ (∀ c ∈ a, c.isDigit = true) ∧ (∀ c ∈ b, c.isDigit = true) ∧ v = a ++ '.' :: b

/-- a declaration file for version `v` -/
def IsDecl (pre v : Str) (e : DirEnt) : Prop :=
  e.isDir = false ∧ IsVersionNum v ∧ e.name = "0=".toList ++ (pre ++ v)

/-- the name is a declaration, or does not contain the start of one -/
def TidyName (pre name : Str) : Prop :=
  (∃ v, IsVersionNum v ∧ name = "0=".toList ++ (pre ++ v)) ∨ ¬ ("0=".toList ++ pre).IsInfix name

/-! ## Matching -/

theorem declTakeWhile_all {p : Char → Bool} {a : Str} (h : ∀ c ∈ a, p c = true) {b : Str}
    (hb : ∀ c r, b = c :: r → p c = false) : (a ++ b).takeWhile p = a ∧ (a ++ b).dropWhile p = b := by
  induction a with
  | nil =>
    cases b with
    | nil => simp
    | cons c r => simp [hb c r rfl]
  | cons x a ih =>
    have hx := h x (by simp)
    have ih := ih (fun c hc => h c (by simp [hc]))
    rw [List.cons_append, List.takeWhile_cons, List.dropWhile_cons, hx]
    simp [ih.1, ih.2]

theorem numMatch_exact {v : Str} (h : IsVersionNum v) : numMatch v = some v := by
  obtain ⟨a, b, ha, hb, hda, hdb, rfl⟩ := h
  have h1 := declTakeWhile_all (p := Char.isDigit) hda (b := '.' :: b) (by
    intro c r h; rw [← (List.cons.inj h).1]; decide)
  have h2 := declTakeWhile_all (p := Char.isDigit) hdb (b := []) (by simp)
  rw [List.append_nil] at h2
  unfold numMatch
  simp only [h1.1, h1.2, h2.1]
  rw [if_neg ha, if_neg hb]

theorem mem_takeWhile_true {p : Char → Bool} {s : Str} : ∀ c ∈ s.takeWhile p, p c = true := by
  intro c hc
  exact List.all_eq_true.1 List.all_takeWhile c hc

theorem numMatch_sound {s v : Str} (h : numMatch s = some v) : IsVersionNum v ∧ v.IsPrefix s := by
  unfold numMatch at h
  simp only at h
  split at h
  · simp at h
  · rename_i ha
    split at h
    · rename_i r hr
      split at h
      · simp at h
      · rename_i hb
        cases h
        refine ⟨⟨_, _, ha, hb, mem_takeWhile_true, mem_takeWhile_true, rfl⟩, ?_⟩
        refine ⟨r.dropWhile Char.isDigit, ?_⟩
        conv_rhs => rw [← List.takeWhile_append_dropWhile (p := Char.isDigit) (l := s), hr]
        rw [List.append_assoc, List.cons_append, List.takeWhile_append_dropWhile]
    · simp at h

theorem declHere_exact {pre v : Str} (h : IsVersionNum v) : declHere pre ("0=".toList ++ (pre ++ v)) = some v := by
  unfold declHere
  have hp : ("0=".toList ++ pre).isPrefixOf ("0=".toList ++ (pre ++ v)) = true := by
    rw [List.isPrefixOf_iff_prefix, ← List.append_assoc]; exact List.prefix_append _ _
  rw [if_pos hp, ← List.append_assoc, List.drop_left, numMatch_exact h]

theorem declHere_sound {pre s v : Str} (h : declHere pre s = some v) :
    IsVersionNum v ∧ ("0=".toList ++ (pre ++ v)).IsPrefix s := by
  unfold declHere at h
  split at h
  · rename_i hp
    rw [List.isPrefixOf_iff_prefix] at hp
    obtain ⟨t, rfl⟩ := hp
    rw [List.drop_left] at h
    obtain ⟨h1, h2⟩ := numMatch_sound h
    refine ⟨h1, ?_⟩
    rw [← List.append_assoc]
    exact (List.prefix_append_right_inj _).2 h2
  · simp at h

theorem declFind_exact {pre v : Str} (h : IsVersionNum v) : declFind pre ("0=".toList ++ (pre ++ v)) = some v := by
  have he := declHere_exact (pre := pre) h
  have hc : "0=".toList ++ (pre ++ v) = '0' :: ('=' :: (pre ++ v)) := rfl
  rw [hc] at he ⊢
  rw [declFind, he]

theorem declFind_sound {pre s v : Str} (h : declFind pre s = some v) :
    IsVersionNum v ∧ ("0=".toList ++ (pre ++ v)).IsInfix s := by
  induction s with
  | nil =>
    rw [declFind] at h
    exact ⟨(declHere_sound h).1, (declHere_sound h).2.isInfix⟩
  | cons c s ih =>
    rw [declFind] at h
    split at h
    · rename_i x hx
      cases h
      exact ⟨(declHere_sound hx).1, (declHere_sound hx).2.isInfix⟩
    · obtain ⟨h1, h2⟩ := ih h
      exact ⟨h1, h2.trans (List.suffix_cons c s).isInfix⟩

theorem IsVersionNum.ne_nil {v : Str} (h : IsVersionNum v) : v ≠ [] := by
  obtain ⟨a, b, _, _, _, _, rfl⟩ := h; simp

theorem declFind_tidy {pre n : Str} (h : TidyName pre n) (v : Str) :
    declFind pre n = some v ↔ IsVersionNum v ∧ n = "0=".toList ++ (pre ++ v) := by
  constructor
  · intro hf
    rcases h with ⟨w, hw, rfl⟩ | h
    · rw [declFind_exact hw] at hf
      cases hf; exact ⟨hw, rfl⟩
    · exfalso
      apply h
      have := (declFind_sound hf).2
      rw [← List.append_assoc] at this
      exact (List.prefix_append _ _).isInfix.trans this
  · rintro ⟨h1, rfl⟩; exact declFind_exact h1

/-! ## The loop -/

/-- the files whose name contains a declaration, with the version read from the name -/
def declFiles (pre : Str) (es : List DirEnt) : List (DirEnt × Str) :=
  es.filterMap (fun e => if e.isDir then none else (declFind pre e.name).map (fun v => (e, v)))

/-- the accepted contents -/
def DeclContentOk (pre v : Str) (e : DirEnt) : Prop :=
  e.content = some (pre ++ v ++ "\n".toList) ∨ e.content = some (pre ++ v ++ "\r\n".toList)

theorem declFiles_cons (pre : Str) (e : DirEnt) (es : List DirEnt) :
    declFiles pre (e :: es) =
      (if e.isDir then [] else match declFind pre e.name with
        | none => []
        | some v => [(e, v)]) ++ declFiles pre es := by
  unfold declFiles
  rw [List.filterMap_cons]
  cases e.isDir
  · cases declFind pre e.name <;> rfl
  · rfl

theorem getVersionLoop_found {pre v : Str} (hv : v ≠ []) (es : List DirEnt) :
    getVersionLoop pre v es = if declFiles pre es = [] then .version v else .multiple := by
  induction es with
  | nil => rw [getVersionLoop, if_neg hv]; rfl
  | cons e es ih =>
    rw [getVersionLoop, declFiles_cons]
    cases e.isDir
    · simp only [Bool.false_eq_true, if_false]
      cases declFind pre e.name with
      | none => simp [ih]
      | some x => simp [hv]
    · simp [ih]

/-- the exact meaning of `getVersion`, in terms of the files whose names contain a declaration -/
theorem getVersion_eq (pre : Str) (es : List DirEnt) :
    getVersion pre es = match declFiles pre es with
      | [] => .none
      | (e, v) :: r =>
        match e.content with
        | Option.none => .unreadable
        | some c =>
          if c ≠ pre ++ v ++ "\n".toList ∧ c ≠ pre ++ v ++ "\r\n".toList then .invalid v
          else if r = [] then .version v else .multiple := by
  unfold getVersion
  induction es with
  | nil => rfl
  | cons e es ih =>
    rw [getVersionLoop, declFiles_cons]
    cases e.isDir
    · simp only [Bool.false_eq_true, if_false]
      cases hf : declFind pre e.name with
      | none => simpa using ih
      | some x =>
        simp only [ne_eq, not_true_eq_false, if_false, List.cons_append, List.nil_append]
        cases e.content with
        | none => rfl
        | some c =>
          simp only
          rw [getVersionLoop_found ((declFind_sound hf).1.ne_nil)]
    · simpa using ih

/-! ## C59 -/

/-- C59 in full: version `v` is reported exactly when there is one declaration file, for `v`, with the content the
standard requires. -/
def C59_full : Prop :=
  ∀ (pre : Str) (es : List DirEnt) (v : Str),
    getVersion pre es = .version v ↔
      ∃ l e r, es = l ++ e :: r ∧ IsDecl pre v e ∧ e.content = some (pre ++ v ++ "\n".toList) ∧
        ∀ x ∈ l ++ r, ∀ w, ¬ IsDecl pre w x

theorem mem_declFiles {pre : Str} {es : List DirEnt} {e : DirEnt} {v : Str} :
    (e, v) ∈ declFiles pre es ↔ e ∈ es ∧ e.isDir = false ∧ declFind pre e.name = some v := by
  unfold declFiles
  rw [List.mem_filterMap]
  constructor
  · rintro ⟨a, ha, h⟩
    split at h
    · simp at h
    · rename_i hd
      obtain ⟨w, hw, h2⟩ := Option.map_eq_some_iff.1 h
      cases h2
      exact ⟨ha, by simpa using hd, hw⟩
  · rintro ⟨h1, h2, h3⟩
    exact ⟨e, h1, by rw [h2, h3]; rfl⟩

theorem declFiles_tidy {pre : Str} {es : List DirEnt} (ht : ∀ e ∈ es, e.isDir = false → TidyName pre e.name)
    {e : DirEnt} {v : Str} : (e, v) ∈ declFiles pre es ↔ e ∈ es ∧ IsDecl pre v e := by
  rw [mem_declFiles]
  constructor
  · rintro ⟨h1, h2, h3⟩
    obtain ⟨h4, h5⟩ := (declFind_tidy (ht e h1 h2) v).1 h3
    exact ⟨h1, h2, h4, h5⟩
  · rintro ⟨h1, h2, h3, h4⟩
    exact ⟨h1, h2, by rw [h4]; exact declFind_exact h3⟩

theorem declFiles_append (pre : Str) (a b : List DirEnt) :
    declFiles pre (a ++ b) = declFiles pre a ++ declFiles pre b := by
  unfold declFiles; rw [List.filterMap_append]

theorem declFiles_eq_nil {pre : Str} {es : List DirEnt} (ht : ∀ e ∈ es, e.isDir = false → TidyName pre e.name) :
    declFiles pre es = [] ↔ ∀ e ∈ es, ∀ w, ¬ IsDecl pre w e := by
  constructor
  · intro h e he w hd
    have := (declFiles_tidy ht).2 ⟨he, hd⟩
    rw [h] at this; simp at this
  · intro h
    by_contra hne
    obtain ⟨⟨e, v⟩, hm⟩ := List.exists_mem_of_ne_nil _ hne
    obtain ⟨h1, h2⟩ := (declFiles_tidy ht).1 hm
    exact h e h1 v h2

theorem declFiles_split {pre : Str} {es : List DirEnt} {e : DirEnt} {v : Str} {r : List (DirEnt × Str)}
    (h : declFiles pre es = (e, v) :: r) :
    ∃ l m, es = l ++ e :: m ∧ declFiles pre l = [] ∧ declFiles pre m = r := by
  induction es with
  | nil => simp [declFiles] at h
  | cons x es ih =>
    rw [declFiles_cons] at h
    by_cases hx : (if x.isDir then ([] : List (DirEnt × Str)) else match declFind pre x.name with
        | none => []
        | some v => [(x, v)]) = []
    · rw [hx, List.nil_append] at h
      obtain ⟨l, m, h1, h2, h3⟩ := ih h
      refine ⟨x :: l, m, by rw [h1]; rfl, ?_, h3⟩
      rw [declFiles_cons, hx, h2]; rfl
    · cases hd : x.isDir with
      | true => rw [hd] at hx; exact absurd rfl hx
      | false =>
        rw [hd] at h hx
        simp only [Bool.false_eq_true, if_false] at h hx
        cases hf : declFind pre x.name with
        | none => rw [hf] at hx; exact absurd rfl hx
        | some w =>
          rw [hf] at h
          simp only [List.cons_append, List.nil_append, List.cons.injEq, Prod.mk.injEq] at h
          obtain ⟨⟨rfl, rfl⟩, rfl⟩ := h
          exact ⟨[], es, rfl, rfl, rfl⟩

/-- C59, for folders without file names that merely contain a declaration: version `v` is reported exactly when there
is one declaration file, for `v`, and its content is the required line (ended by LF or CR LF); without declaration
`none` is reported, with one of wrong content `invalid`, and with several `multiple` (or `invalid`/`unreadable`, if
already the first one is broken).  Missing: other file names containing a declaration count as declarations, and CR LF
is accepted. -/
theorem C59_recognised_partial {pre : Str} {es : List DirEnt}
    (ht : ∀ e ∈ es, e.isDir = false → TidyName pre e.name) :
    (∀ v, getVersion pre es = .version v ↔
      ∃ l e r, es = l ++ e :: r ∧ IsDecl pre v e ∧ DeclContentOk pre v e ∧ ∀ x ∈ l ++ r, ∀ w, ¬ IsDecl pre w x) ∧
    (getVersion pre es = .none ↔ ∀ e ∈ es, ∀ w, ¬ IsDecl pre w e) ∧
    (∀ l e m e' r v w, es = l ++ e :: (m ++ e' :: r) → IsDecl pre v e → IsDecl pre w e' →
      (∀ x ∈ l, ∀ u, ¬ IsDecl pre u x) → DeclContentOk pre v e → getVersion pre es = .multiple) ∧
    (∀ v, getVersion pre es = .invalid v → ∃ e ∈ es, IsDecl pre v e ∧ ¬ DeclContentOk pre v e) ∧
    (∀ l e r v, es = l ++ e :: r → IsDecl pre v e → (∀ x ∈ l, ∀ u, ¬ IsDecl pre u x) → ¬ DeclContentOk pre v e →
      e.content ≠ Option.none → getVersion pre es = .invalid v) := by
  have hok : ∀ {v : Str} {e : DirEnt} {c : Str}, e.content = some c →
      (DeclContentOk pre v e ↔ ¬ (c ≠ pre ++ v ++ "\n".toList ∧ c ≠ pre ++ v ++ "\r\n".toList)) := by
    intro v e c hc
    unfold DeclContentOk
    rw [hc]
    simp only [Option.some.injEq, not_and, not_not]
    constructor
    · rintro (h | h) h1
      · exact absurd h h1
      · exact h
    · intro h
      by_cases h1 : c = pre ++ v ++ "\n".toList
      · exact .inl h1
      · exact .inr (h h1)
  have hfirst : ∀ {l r : List DirEnt} {e : DirEnt} {v : Str}, es = l ++ e :: r → IsDecl pre v e →
      (∀ x ∈ l, ∀ u, ¬ IsDecl pre u x) → declFiles pre es = (e, v) :: declFiles pre r := by
    intro l r e v hes hd hl
    have h1 : declFiles pre l = [] :=
      (declFiles_eq_nil (fun x hx => ht x (by rw [hes]; simp [hx]))).2 hl
    rw [hes, declFiles_append, h1, declFiles_cons, hd.1]
    have : declFind pre e.name = some v := by rw [hd.2.2]; exact declFind_exact hd.2.1
    rw [this]; rfl
  refine ⟨?_, ?_, ?_, ?_, ?_⟩
  · intro v
    rw [getVersion_eq]
    constructor
    · intro h
      split at h
      · simp at h
      · rename_i e w r hf
        split at h
        · simp at h
        · rename_i c hc
          split at h
          · simp at h
          · rename_i hcok
            split at h
            · rename_i hr
              cases h
              obtain ⟨l, m, h1, h2, h3⟩ := declFiles_split hf
              have hm : (e, v) ∈ declFiles pre es := by rw [hf]; simp
              refine ⟨l, e, m, h1, ((declFiles_tidy ht).1 hm).2, (hok hc).2 hcok, ?_⟩
              intro x hx
              have ht' : ∀ y ∈ l ++ m, y.isDir = false → TidyName pre y.name := by
                intro y hy
                apply ht
                rw [h1]
                rcases List.mem_append.1 hy with hy | hy <;> simp [hy]
              refine (declFiles_eq_nil ht').1 ?_ x hx
              rw [declFiles_append, h2, h3, hr]; rfl
            · simp at h
    · rintro ⟨l, e, r, hes, hd, hc, hn⟩
      have hf := hfirst hes hd (fun x hx => hn x (by simp [hx]))
      rw [hf]
      have hr : declFiles pre r = [] :=
        (declFiles_eq_nil (fun x hx => ht x (by rw [hes]; simp [hx]))).2 (fun x hx => hn x (by simp [hx]))
      simp only
      cases hcc : e.content with
      | none => rcases hc with hc | hc <;> (rw [hcc] at hc; simp at hc)
      | some c =>
        simp only
        rw [if_neg ((hok hcc).1 hc), if_pos hr]
  · rw [← declFiles_eq_nil ht, getVersion_eq]
    constructor
    · intro h
      split at h
      · assumption
      · split at h
        · simp at h
        · split at h
          · simp at h
          · split at h <;> simp at h
    · intro h; rw [h]
  · intro l e m e' r v w hes hd hd' hl hc
    have hf := hfirst hes hd hl
    rw [getVersion_eq, hf]
    simp only
    cases hcc : e.content with
    | none => rcases hc with hc | hc <;> (rw [hcc] at hc; simp at hc)
    | some c =>
      simp only
      rw [if_neg ((hok hcc).1 hc), if_neg]
      intro hnil
      have ht' : ∀ y ∈ m ++ e' :: r, y.isDir = false → TidyName pre y.name := by
        intro y hy; apply ht; rw [hes]
        simp only [List.mem_append, List.mem_cons]
        exact .inr (.inr (by simpa using hy))
      exact (declFiles_eq_nil ht').1 hnil e' (by simp) w hd'
  · intro v h
    rw [getVersion_eq] at h
    split at h
    · simp at h
    · rename_i e w r hf
      split at h
      · simp at h
      · rename_i c hc
        split at h
        · rename_i hcok
          cases h
          have hm : (e, v) ∈ declFiles pre es := by rw [hf]; simp
          obtain ⟨h1, h2⟩ := (declFiles_tidy ht).1 hm
          exact ⟨e, h1, h2, fun h3 => (hok hc).1 h3 hcok⟩
        · split at h <;> simp at h
  · intro l e r v hes hd hl hc hne
    rw [getVersion_eq, hfirst hes hd hl]
    simp only
    cases hcc : e.content with
    | none => exact absurd hcc hne
    | some c =>
      simp only
      rw [if_pos]
      by_contra h
      exact hc ((hok hcc).2 h)

/-- What `Init` writes is recognised, among any other files with tidy names that are no declarations. -/
theorem C59_own_declaration {pre v : Str} (hv : IsVersionNum v) {l r : List DirEnt}
    (ht : ∀ e ∈ l ++ r, e.isDir = false → TidyName pre e.name) (hn : ∀ e ∈ l ++ r, ∀ w, ¬ IsDecl pre w e) :
    getVersion pre (l ++ ownDecl pre v :: r) = .version v := by
  have hd : IsDecl pre v (ownDecl pre v) := ⟨rfl, hv, rfl⟩
  refine ((C59_recognised_partial ?_).1 v).2 ⟨l, ownDecl pre v, r, rfl, hd, .inl rfl, hn⟩
  intro e he hdir
  simp only [List.mem_append, List.mem_cons] at he
  rcases he with he | rfl | he
  · exact ht e (by simp [he]) hdir
  · exact .inl ⟨v, hv, rfl⟩
  · exact ht e (by simp [he]) hdir

example : IsVersionNum "1.1".toList :=
  ⟨"1".toList, "1".toList, by decide, by decide, by decide, by decide, by decide⟩

example : getVersion "ocfl_object_".toList [ownDecl "ocfl_object_".toList "1.1".toList,
    ⟨"inventory.json".toList, false, some "{}".toList⟩, ⟨"v1".toList, true, none⟩] = .version "1.1".toList := by decide

/-- C59 is violated: a backup copy of a declaration counts as declaration. -/
theorem C59_full_fails : ¬ C59_full := by
  intro h
  have := (h "ocfl_".toList [⟨"old-0=ocfl_1.0.bak".toList, false, some "ocfl_1.0\n".toList⟩] "1.0".toList).1 (by decide)
  obtain ⟨l, e, r, hes, hd, _, _⟩ := this
  cases l with
  | nil =>
    rw [List.nil_append] at hes
    have he := (List.cons.inj hes).1
    rw [← he] at hd
    exact absurd hd.2.2 (by decide)
  | cons x l =>
    have := (List.cons.inj hes).2
    simp at this

/-- C59 is violated: a declaration with a DOS line end is accepted although the standard demands LF. -/
theorem C59_full_fails_crlf : ¬ C59_full := by
  intro h
  have := (h "ocfl_".toList [⟨"0=ocfl_1.0".toList, false, some "ocfl_1.0\r\n".toList⟩] "1.0".toList).1 (by decide)
  obtain ⟨l, e, r, hes, hd, hc, _⟩ := this
  cases l with
  | nil =>
    rw [List.nil_append] at hes
    have he := (List.cons.inj hes).1
    rw [← he] at hc
    exact absurd hc (by decide)
  | cons x l =>
    have := (List.cons.inj hes).2
    simp at this

/-- Two copies under different names make a folder with one proper declaration unreadable. -/
theorem C59_backup_blocks : getVersion "ocfl_".toList
    [⟨"0=ocfl_1.0".toList, false, some "ocfl_1.0\n".toList⟩, ⟨"0=ocfl_1.0~".toList, false, some "ocfl_1.0\n".toList⟩] =
    .multiple := by decide

end Gocfl
