import Verif.Props.Report
import Verif.Model.LoadLemmas

/-!
# C110: findings say what was found, and where
-/

namespace Gocfl

theorem trimSpace_blank (s : Str) : trimSpace (' ' :: s) = trimSpace s := by
  unfold trimSpace
  rw [List.dropWhile_cons_of_pos (by decide)]

/-- `t` is `s` without blanks at the ends -/
def Trimmed (s t : Str) : Prop :=
  (∃ l r, s = l ++ t ++ r ∧ (∀ x ∈ l, isSpaceChar x = true) ∧ ∀ x ∈ r, isSpaceChar x = true) ∧
  (∀ c, t.head? = some c → isSpaceChar c = false) ∧ (∀ c, t.getLast? = some c → isSpaceChar c = false)

theorem trimSpace_trimmed (s : Str) : Trimmed s (trimSpace s) := by
  refine ⟨trimSpace_spec s, ?_, ?_⟩
  · intro c hc
    unfold trimSpace at hc
    rw [List.head?_reverse] at hc
    by_cases hn : ((s.dropWhile isSpaceChar).reverse.dropWhile isSpaceChar) = []
    · rw [hn] at hc; cases hc
    · obtain ⟨pre, hp⟩ := List.dropWhile_suffix (l := (s.dropWhile isSpaceChar).reverse) isSpaceChar
      refine dropWhile_head (p := isSpaceChar) s c ?_
      have : (s.dropWhile isSpaceChar).reverse.getLast? = some c := by
        rw [← hp, List.getLast?_append, hc]; rfl
      rwa [List.getLast?_reverse] at this
  · intro c hc
    unfold trimSpace at hc
    rw [List.getLast?_reverse] at hc
    exact dropWhile_head _ c hc

/-- **C110, the text.** Every finding that is recorded carries the description and the place given, up to blanks at the
ends, whatever the code. -/
theorem C110_says_what_and_where {text : Str → Str → Str} {version code desc context : Str} {e : ValErr}
    (h : record text version code desc context = some e) : Trimmed desc e.description2 ∧ Trimmed context e.context := by
  unfold record at h
  obtain ⟨e0, h0, rfl⟩ := Option.map_eq_some_iff.1 h
  have hd : e0.description2 = [] ∧ e0.context = [] := by
    have ht : ∀ {v c : Str} {x : ValErr}, tableEntry text v c = some x → x.description2 = [] ∧ x.context = [] := by
      intro v c x hx
      unfold tableEntry at hx
      split at hx
      · cases hx; exact ⟨rfl, rfl⟩
      · cases hx
    unfold getValidationError at h0
    split at h0
    · rename_i x hx; cases h0; exact ht hx
    · split at h0
      · cases h0
        unfold unknownEntry
        split <;> exact ⟨rfl, rfl⟩
      · exact ht h0
  unfold ValErr.appendContext ValErr.appendDescription
  simp only [hd.1, List.nil_append, trimSpace_blank]
  exact ⟨trimSpace_trimmed _, trimSpace_trimmed _⟩

theorem trimmed_unique {s : Str} (h1 : ∀ c, s.head? = some c → isSpaceChar c = false)
    (h2 : ∀ c, s.getLast? = some c → isSpaceChar c = false) {t : Str} (ht : Trimmed s t) : t = s := by
  obtain ⟨⟨l, r, he, hl, hr⟩, _, _⟩ := ht
  cases l with
  | cons a l =>
    rw [he] at h1
    have := h1 a rfl
    rw [hl a (by simp)] at this
    cases this
  | nil =>
    cases hrr : r.reverse with
    | nil =>
      rw [List.reverse_eq_nil_iff] at hrr
      rw [hrr] at he
      simpa using he.symm
    | cons a r' =>
      have hr2 : r = r'.reverse ++ [a] := by
        have := congrArg List.reverse hrr
        simpa using this
      rw [he, hr2] at h2
      have := h2 a (by simp)
      rw [hr a (by rw [hr2]; simp)] at this
      cases this

theorem trimmed_objContext {folder id t : Str} (h : Trimmed (objContext folder id) t) : t = objContext folder id := by
  refine trimmed_unique ?_ ?_ h
  · intro c hc
    unfold objContext at hc
    have : c = 'o' := by
      have := hc.symm
      simpa using this
    rw [this]; decide
  · intro c hc
    unfold objContext at hc
    rw [List.getLast?_append] at hc
    have : c = '\'' := Option.some.inj hc.symm
    rw [this]; decide

/-- up to the first quote -/
theorem quote_split {a b x y : Str} (ha : '\'' ∉ a) (hb : '\'' ∉ b) (h : a ++ '\'' :: x = b ++ '\'' :: y) : a = b ∧ x = y := by
  induction a generalizing b with
  | nil =>
    cases b with
    | nil => simpa using h
    | cons c b =>
      simp only [List.nil_append, List.cons_append, List.cons.injEq] at h
      exact absurd (h.1 ▸ List.mem_cons_self ..) hb
  | cons c a ih =>
    cases b with
    | nil =>
      simp only [List.nil_append, List.cons_append, List.cons.injEq] at h
      exact absurd (h.1 ▸ List.mem_cons_self ..) ha
    | cons d b =>
      simp only [List.cons_append, List.cons.injEq] at h
      obtain ⟨h1, h2⟩ := ih (fun h => ha (List.mem_cons_of_mem _ h)) (fun h => hb (List.mem_cons_of_mem _ h)) h.2
      exact ⟨by rw [h.1, h1], h2⟩

/-- C110 in full: moreover findings about different objects — in different folders or with different ids — are different
findings, so that compacting the report never drops one object's finding in favour of another's. -/
def C110_full : Prop :=
  ∀ (text : Str → Str → Str) (v1 v2 c1 c2 d1 d2 f1 f2 i1 i2 : Str) (e1 e2 : ValErr),
    record text v1 c1 d1 (objContext f1 i1) = some e1 → record text v2 c2 d2 (objContext f2 i2) = some e2 →
    SameFinding e1 e2 → f1 = f2 ∧ i1 = i2

/-- **C110, the object**: so it is if the folders contain no quotes (the ids may).  Missing: folders with quotes. -/
theorem C110_different_objects_partial {text : Str → Str → Str} {v1 v2 c1 c2 d1 d2 f1 f2 i1 i2 : Str} {e1 e2 : ValErr}
    (h1 : record text v1 c1 d1 (objContext f1 i1) = some e1) (h2 : record text v2 c2 d2 (objContext f2 i2) = some e2)
    (hs : SameFinding e1 e2) (q1 : '\'' ∉ f1) (q2 : '\'' ∉ f2) : f1 = f2 ∧ i1 = i2 := by
  have t1 := trimmed_objContext (C110_says_what_and_where h1).2
  have t2 := trimmed_objContext (C110_says_what_and_where h2).2
  have := hs.1
  rw [t1, t2] at this
  unfold objContext at this
  simp only [List.append_assoc] at this
  have := List.append_cancel_left this
  obtain ⟨h, h'⟩ := quote_split (x := " - '".toList ++ (i1 ++ "'".toList)) (y := " - '".toList ++ (i2 ++ "'".toList)) q1 q2 this
  exact ⟨h, List.append_cancel_right (List.append_cancel_left h')⟩

/-- findings about an object are never taken for findings about a storage root -/
theorem C110_object_not_root {text : Str → Str → Str} {v1 v2 c1 c2 d1 d2 f1 f2 i1 : Str} {e1 e2 : ValErr}
    (h1 : record text v1 c1 d1 (objContext f1 i1) = some e1) (h2 : record text v2 c2 d2 (rootContext f2) = some e2) :
    ¬ SameFinding e1 e2 := by
  intro hs
  have t1 := trimmed_objContext (C110_says_what_and_where h1).2
  have hc := hs.1
  rw [t1] at hc
  obtain ⟨⟨l, r, he, hl, _⟩, _, _⟩ := (C110_says_what_and_where h2).2
  rw [← hc] at he
  cases l with
  | nil =>
    have : some 's' = some 'o' := congrArg List.head? he
    exact absurd (Option.some.inj this) (by decide)
  | cons a l =>
    have ha := hl a (by simp)
    have : some 's' = some a := congrArg List.head? he
    rw [← Option.some.inj this] at ha
    exact absurd ha (by decide)

/-- C110 is violated: the same words for two objects in different folders with different ids. -/
theorem C110_full_fails : ¬ C110_full := by
  intro h
  have := (h (fun _ _ => []) "1.1".toList "1.1".toList "E001".toList "E001".toList [] [] "a".toList "a' - 'b".toList
    "b' - 'c".toList "c".toList _ _ rfl rfl ⟨by decide, by decide, by decide⟩).1
  exact absurd this (by decide)

/-- a recorded finding -/
example : record (fun _ _ => "text".toList) "1.1".toList "E023".toList "missing file 'x' ".toList
    (objContext "/data/o1".toList "id1".toList) =
    some ⟨"E023".toList, "text".toList, "missing file 'x'".toList, "object '/data/o1' - 'id1'".toList, []⟩ := by decide

end Gocfl
