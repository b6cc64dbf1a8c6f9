import Verif.Model.Report

/-! # The validation report: C45, C46, C67, C68, C69 -/

namespace Gocfl

/-- `a` and `b` are about the same object, with the same code and description -/
def SameFinding (a b : ValErr) : Prop := a.context = b.context ∧ a.code = b.code ∧ a.description2 = b.description2

theorem sameFinding_iff {a b : ValErr} : sameFinding a b = true ↔ SameFinding a b := by
  simp [sameFinding, SameFinding, and_assoc]

theorem SameFinding.refl (a : ValErr) : SameFinding a a := ⟨rfl, rfl, rfl⟩
theorem SameFinding.symm {a b : ValErr} (h : SameFinding a b) : SameFinding b a := ⟨h.1.symm, h.2.1.symm, h.2.2.symm⟩
theorem SameFinding.trans {a b c : ValErr} (h : SameFinding a b) (g : SameFinding b c) : SameFinding a c :=
  ⟨h.1.trans g.1, h.2.1.trans g.2.1, h.2.2.trans g.2.2⟩

/-! ## Compacting -/

theorem compactFrom_sublist {α : Type} (eq : α → α → Bool) (a : α) (l : List α) : (compactFrom eq a l).Sublist (a :: l) := by
  induction l generalizing a with
  | nil => exact List.Sublist.refl _
  | cons b l ih =>
    unfold compactFrom
    split
    · exact (ih a).trans ((List.sublist_cons_self b l).cons_cons a)
    · exact (ih b).cons_cons a

theorem compactFunc_sublist {α : Type} (eq : α → α → Bool) (l : List α) : (compactFunc eq l).Sublist l := by
  cases l with
  | nil => exact List.Sublist.refl _
  | cons a l => exact compactFrom_sublist eq a l

theorem compacted_covers {a : ValErr} {l : List ValErr} :
    ∀ x ∈ a :: l, ∃ y ∈ compactFrom sameFinding a l, SameFinding x y := by
  induction l generalizing a with
  | nil =>
    intro x hx
    exact ⟨a, by simp [compactFrom], by rw [List.mem_singleton] at hx; subst hx; exact SameFinding.refl _⟩
  | cons b l ih =>
    intro x hx
    unfold compactFrom
    split
    · rename_i h
      rcases List.mem_cons.1 hx with rfl | hx
      · exact ih x (List.mem_cons_self ..)
      · rcases List.mem_cons.1 hx with rfl | hx
        · obtain ⟨y, h1, h2⟩ := ih a (List.mem_cons_self ..)
          exact ⟨y, h1, (sameFinding_iff.1 h).symm.trans h2⟩
        · exact ih x (List.mem_cons_of_mem _ hx)
    · rcases List.mem_cons.1 hx with rfl | hx
      · exact ⟨x, List.mem_cons_self .., SameFinding.refl _⟩
      · obtain ⟨y, h1, h2⟩ := ih x hx
        exact ⟨y, List.mem_cons_of_mem _ h1, h2⟩

/-- **C45.** Whatever order sorting produces (the comparison function is no ordering, so nothing else is assumed),
compacting keeps for every finding one about the same object with the same code and description, and adds none. -/
theorem C45_nothing_lost {found sorted : List ValErr} (hs : sorted.Perm found) :
    (∀ e ∈ found, ∃ e' ∈ compacted sorted, SameFinding e e') ∧ (∀ e ∈ compacted sorted, e ∈ found) ∧
    (compacted sorted).length ≤ found.length := by
  refine ⟨?_, ?_, ?_⟩
  · intro e he
    have he := hs.mem_iff.2 he
    cases sorted with
    | nil => cases he
    | cons a l => exact compacted_covers e he
  · exact fun e he => hs.mem_iff.1 ((compactFunc_sublist _ _).subset he)
  · rw [← hs.length_eq]; exact (compactFunc_sublist _ _).length_le

/-! ## The verdict (C67) -/

/-- **C67.** The verdict printed is about the findings recorded: `no errors found` is printed exactly if no recorded
finding is an error, whatever order sorting produces; and for findings with a code printing never crashes. -/
theorem C67_verdict {found sorted : List ValErr} (hs : sorted.Perm found) (hc : ∀ e ∈ found, e.code ≠ []) :
    ∃ n, errorCount (compacted sorted) = some n ∧ (n = 0 ↔ ∀ e ∈ found, e.code.head? ≠ some 'E') := by
  obtain ⟨h1, h2, _⟩ := C45_nothing_lost hs
  refine ⟨(compacted sorted).countP (fun e => decide (e.code.head? = some 'E')), ?_, ?_⟩
  · unfold errorCount
    rw [if_neg]
    simp only [List.any_eq_true, decide_eq_true_eq, not_exists, not_and]
    exact fun e he => hc e (h2 e he)
  · rw [List.countP_eq_zero]
    simp only [decide_eq_true_eq]
    constructor
    · intro h e he hE
      obtain ⟨e', h3, h4⟩ := h1 e he
      exact h e' h3 (by rw [← h4.2.1]; exact hE)
    · intro h e he
      exact h e (h2 e he)

/-! ## Lookup (C46) -/

theorem errMapping_target {v c c' : Str} (h : mget (errMapping v) c = some c') : c' ∈ errTable v := by
  unfold errMapping at h
  unfold errTable
  split at h
  · cases h
  · rename_i hv
    rw [if_neg hv]
    have := mem_of_mget h
    rw [List.mem_singleton] at this
    cases this
    decide

/-- **C46, full statement** (false): every code resolves to itself or to its replacement. -/
def C46_full : Prop :=
  ∀ (text : Str → Str → Str) (v c : Str), c ∈ allCodes →
    ∃ e, getValidationError text v c = some e ∧ (e.code = c ∨ mget (errMapping v) c = some e.code)

/-- **C46** for all strings: the lookup never yields nil; a code of the table of the version gives a finding with that
code and the text of that version, a code with a replacement gives the replacement, all others (codes of other
versions included) the general error or warning, naming the code. -/
theorem C46_lookup_partial (text : Str → Str → Str) (v c : Str) :
    ∃ e, getValidationError text v c = some e ∧ e.code ≠ [] ∧
      (c ∈ errTable v → e.code = c ∧ e.description = text v c) ∧
      (∀ c', c ∉ errTable v → mget (errMapping v) c = some c' → e.code = c' ∧ e.description = text v c') ∧
      (c ∉ errTable v → mget (errMapping v) c = none →
        (e.code = if c.head? = some 'W' then "W000".toList else "E000".toList) ∧ ∃ l, e.description = l ++ c) := by
  have hne : ∀ c, c ∈ errTable v → c ≠ [] := by
    intro c hc
    unfold errTable at hc
    have h1 : codes11.all (fun c => !c.isEmpty) = true := by decide
    have h2 : codes10.all (fun c => !c.isEmpty) = true := by decide
    have h1 : ∀ c ∈ codes11, c ≠ [] := fun c hc => by simpa using List.all_eq_true.1 h1 c hc
    have h2 : ∀ c ∈ codes10, c ≠ [] := fun c hc => by simpa using List.all_eq_true.1 h2 c hc
    split at hc
    · exact h1 c hc
    · exact h2 c hc
  unfold getValidationError tableEntry
  by_cases hc : c ∈ errTable v
  · rw [if_pos hc]
    exact ⟨_, rfl, hne c hc, fun _ => ⟨rfl, rfl⟩, fun _ h => absurd hc h, fun h => absurd hc h⟩
  · rw [if_neg hc]
    cases hm : mget (errMapping v) c with
    | none =>
      refine ⟨_, rfl, ?_, fun h => absurd h hc, fun _ _ h => (by cases h), fun _ _ => ?_⟩
      · unfold unknownEntry; split <;> exact List.cons_ne_nil _ _
      · unfold unknownEntry
        split
        · exact ⟨rfl, _, rfl⟩
        · exact ⟨rfl, _, rfl⟩
    | some c' =>
      have ht := errMapping_target hm
      simp only [if_pos ht]
      refine ⟨_, rfl, hne c' ht, fun h => absurd h hc, fun c2 _ h => ?_, fun _ h => by cases h⟩
      cases h
      exact ⟨rfl, rfl⟩

/-- The table entries of version 1.1 are a superset of what validation of 1.0 objects can report only with the
replacement: `E107` (reported for unused manifest digests) is unknown in version 1.0. -/
theorem C46_full_fails : ¬ C46_full := by
  intro hf
  obtain ⟨e, h1, h2⟩ := hf (fun _ _ => []) "1.0".toList "E107".toList (by decide)
  have h3 : (getValidationError (fun _ _ => []) "1.0".toList "E107".toList).map ValErr.code = some "E000".toList := by decide
  rw [h1] at h3
  have h3 : e.code = "E000".toList := Option.some.inj h3
  rcases h2 with h2 | h2
  · rw [h3] at h2; revert h2; decide
  · rw [h3] at h2; revert h2; decide

/-- replaced, known and unknown codes exist -/
example : (getValidationError (fun _ _ => []) "1.0".toList "E104".toList).map ValErr.code = some "E001".toList ∧
    (getValidationError (fun _ _ => []) "1.1".toList "E104".toList).map ValErr.code = some "E104".toList ∧
    (getValidationError (fun _ _ => []) "2.0".toList "W016".toList).map ValErr.code = some "W000".toList := by decide

/-- Findings recorded for objects and storage roots have a code, as `C67_verdict` asks for. -/
theorem record_code {text : Str → Str → Str} {v c d x : Str} :
    ∃ e, record text v c d x = some e ∧ e.code ≠ [] := by
  obtain ⟨e, h1, h2, _⟩ := C46_lookup_partial text v c
  exact ⟨(e.appendDescription d).appendContext x, by unfold record; rw [h1]; rfl, h2⟩

/-! ## Each finding once (C68) -/

/-- **C68, full statement** (false): after compacting no finding is listed twice (up to twelve findings, for which
`slices.SortFunc` is insertion sort). -/
def C68_full : Prop :=
  ∀ l : List ValErr, l.length ≤ 12 →
    (compacted (insertionSort validationLess l)).Pairwise (fun a b => ¬ SameFinding a b)

/-- equal findings are next to each other -/
def Grouped (l : List ValErr) : Prop := ∀ a c b, [a, c, b].Sublist l → SameFinding a b → SameFinding a c

theorem compactFrom_once {a : ValErr} {l : List ValErr} (h : Grouped (a :: l)) :
    (compactFrom sameFinding a l).Pairwise (fun a b => ¬ SameFinding a b) := by
  induction l generalizing a with
  | nil => simp [compactFrom]
  | cons b l ih =>
    unfold compactFrom
    split
    · exact ih (fun x y z hs => h x y z (hs.trans ((List.sublist_cons_self b l).cons_cons a)))
    · rename_i hab
      have hab : ¬ SameFinding a b := fun hc => hab (sameFinding_iff.2 hc)
      refine List.pairwise_cons.2 ⟨?_, ih (fun x y z hs => h x y z (hs.trans (List.sublist_cons_self _ _)))⟩
      intro x hx hs
      rcases List.mem_cons.1 ((compactFrom_sublist _ _ _).subset hx) with rfl | hx'
      · exact hab hs
      · exact hab (h a b x (((List.singleton_sublist.2 hx').cons_cons b).cons_cons a) hs)

theorem compacted_once {l : List ValErr} (h : Grouped l) : (compacted l).Pairwise (fun a b => ¬ SameFinding a b) := by
  cases l with
  | nil => exact List.Pairwise.nil
  | cons a l => exact compactFrom_once h

/-- the sort keys of the findings tell them apart -/
def KeysDiffer (l : List ValErr) : Prop := ∀ a ∈ l, ∀ b ∈ l, sortKey a = sortKey b → SameFinding a b

theorem sameFinding_key {a b : ValErr} (h : SameFinding a b) : sortKey a = sortKey b ∧ isRoot a = isRoot b := by
  unfold sortKey isRoot
  rw [h.1, h.2.1, h.2.2]
  exact ⟨rfl, rfl⟩

/-- sorted among the findings of the same kind (storage root or object), as a reversed list -/
def KindSorted (l : List ValErr) : Prop :=
  l.Pairwise (fun a b => isRoot a = isRoot b → strLe (sortKey b) (sortKey a) = true)

theorem moveLeft_split {α : Type} (less : α → α → Bool) (x : α) (acc : List α) :
    ∃ l1 l2, acc = l1 ++ l2 ∧ moveLeft less x acc = l1 ++ x :: l2 ∧ (∀ y ∈ l1, less x y = true) ∧
      (∀ y, l2.head? = some y → less x y = false) := by
  induction acc with
  | nil => exact ⟨[], [], rfl, rfl, by simp, by simp⟩
  | cons y ys ih =>
    unfold moveLeft
    split
    · rename_i h
      obtain ⟨l1, l2, h1, h2, h3, h4⟩ := ih
      refine ⟨y :: l1, l2, by rw [h1]; rfl, by rw [h2]; rfl, ?_, h4⟩
      intro z hz
      rcases List.mem_cons.1 hz with rfl | hz
      · exact h
      · exact h3 z hz
    · rename_i h
      exact ⟨[], y :: ys, rfl, rfl, by simp, by intro z hz; cases hz; simpa using h⟩

theorem validationLess_true {x y : ValErr} (h : validationLess x y = true) (hk : isRoot x = isRoot y) :
    strLe (sortKey y) (sortKey x) = false := by
  unfold validationLess at h
  rw [if_neg (by simp [hk])] at h
  simpa [strLt] using h

theorem validationLess_false {x y : ValErr} (h : validationLess x y = false) :
    isRoot x = isRoot y ∧ strLe (sortKey y) (sortKey x) = true := by
  unfold validationLess at h
  split at h
  · cases h
  · rename_i hk
    exact ⟨by simpa using hk, by simpa [strLt] using h⟩

theorem grouped_insert {x : ValErr} {l1 l2 : List ValErr} (hg : Grouped (l1 ++ l2)) (hk : KindSorted (l1 ++ l2))
    (hd : KeysDiffer (x :: (l1 ++ l2))) (h1 : ∀ y ∈ l1, validationLess x y = true)
    (h2 : ∀ y, l2.head? = some y → validationLess x y = false) :
    Grouped (l1 ++ x :: l2) ∧ KindSorted (l1 ++ x :: l2) := by
  have hk2 : KindSorted l2 := (List.pairwise_append.1 hk).2.1
  have hbelow : ∀ b ∈ l2, isRoot x = isRoot b → strLe (sortKey b) (sortKey x) = true := by
    intro b hb hkb
    cases l2 with
    | nil => cases hb
    | cons y t =>
      obtain ⟨k1, k2⟩ := validationLess_false (h2 y rfl)
      rcases List.mem_cons.1 hb with rfl | hb
      · exact k2
      · exact strLe_trans ((List.pairwise_cons.1 hk2).1 b hb (k1.symm.trans hkb)) k2
  constructor
  · intro a c b hs hab
    obtain ⟨ka, kr⟩ := sameFinding_key hab
    obtain ⟨s1, s2, he, hs1, hs2⟩ := List.sublist_append_iff.1 hs
    rcases List.sublist_cons_iff.1 hs2 with hs2 | ⟨r, rfl, hr⟩
    · exact hg a c b (by rw [he]; exact hs1.append hs2) hab
    · match s1, he, hs1 with
      | [], he, _ =>
        -- `x` is the first of the three
        rw [List.nil_append, List.cons.injEq] at he
        obtain ⟨rfl, rfl⟩ := he
        cases l2 with
        | nil => cases hr
        | cons y t =>
          obtain ⟨k1, k2⟩ := validationLess_false (h2 y rfl)
          have hyb : strLe (sortKey b) (sortKey y) = true := by
            have hb : b ∈ y :: t := hr.subset (by simp)
            rcases List.mem_cons.1 hb with rfl | hb
            · exact strLe_refl _
            · exact (List.pairwise_cons.1 hk2).1 b hb (k1.symm.trans kr)
          have hxy : SameFinding a y := by
            refine hd a (List.mem_cons_self ..) y (by simp) (strLe_antisymm ?_ k2)
            rw [ka]; exact hyb
          rcases List.sublist_cons_iff.1 hr with hr | ⟨r', he, hr⟩
          · exact hxy.trans (hg y c b ((hr.cons_cons y).trans (List.sublist_append_right ..)) (hxy.symm.trans hab))
          · cases he; exact hxy
      | [a'], he, hs1 =>
        simp only [List.cons_append, List.nil_append, List.cons.injEq] at he
        obtain ⟨rfl, rfl, rfl⟩ := he
        have ha : a ∈ l1 := List.singleton_sublist.1 hs1
        have hb : b ∈ l2 := List.singleton_sublist.1 hr
        cases l2 with
        | nil => cases hb
        | cons y t =>
          obtain ⟨k1, k2⟩ := validationLess_false (h2 y rfl)
          by_cases hka : isRoot c = isRoot a
          · have h3 := validationLess_true (h1 a ha) hka
            have h4 := hbelow b hb (hka.trans kr)
            rw [← ka, h3] at h4
            cases h4
          · exfalso
            have hyb : b ≠ y := by rintro rfl; exact hka (k1.trans kr.symm)
            have hb : b ∈ t := by
              rcases List.mem_cons.1 hb with h | h
              · exact absurd h hyb
              · exact h
            have := hg a y b ((List.singleton_sublist.2 ha).append ((List.singleton_sublist.2 hb).cons_cons y)) hab
            exact hka (k1.trans (sameFinding_key this).2.symm)
      | [a', c'], he, hs1 =>
        simp only [List.cons_append, List.nil_append, List.cons.injEq] at he
        obtain ⟨rfl, rfl, rfl, _⟩ := he
        have ha : a ∈ l1 := hs1.subset (by simp)
        have h3 := validationLess_true (h1 a ha) kr.symm
        rw [ka, strLe_refl] at h3
        cases h3
      | a' :: c' :: b' :: s, he, _ =>
        have := congrArg List.length he
        simp at this
  · refine List.pairwise_append.2 ⟨(List.pairwise_append.1 hk).1, List.pairwise_cons.2 ⟨hbelow, hk2⟩, ?_⟩
    intro a ha b hb hkb
    rcases List.mem_cons.1 hb with rfl | hb
    · have := validationLess_true (h1 a ha) hkb.symm
      rcases strLe_total (sortKey a) (sortKey b) with h | h
      · rw [this] at h; cases h
      · exact h
    · exact (List.pairwise_append.1 hk).2.2 a ha b hb hkb

theorem insertionFold_grouped {l acc : List ValErr} (hd : KeysDiffer (acc ++ l)) (hg : Grouped acc) (hk : KindSorted acc) :
    Grouped (l.foldl (fun acc x => moveLeft validationLess x acc) acc) := by
  induction l generalizing acc with
  | nil => exact hg
  | cons x l ih =>
    obtain ⟨l1, l2, e1, e2, e3, e4⟩ := moveLeft_split validationLess x acc
    have hmem : ∀ z, z ∈ moveLeft validationLess x acc ↔ z = x ∨ z ∈ acc := by
      intro z; rw [e2, e1]; simp only [List.mem_append, List.mem_cons]; tauto
    have := grouped_insert (x := x) (l1 := l1) (l2 := l2) (by rw [← e1]; exact hg) (by rw [← e1]; exact hk)
      (by
        intro a ha b hb
        rw [← e1] at ha hb
        refine hd a ?_ b ?_ <;> simp only [List.mem_append, List.mem_cons] at * <;> tauto) e3 e4
    rw [← e2] at this
    refine ih ?_ this.1 this.2
    intro a ha b hb
    refine hd a ?_ b ?_
    · simp only [List.mem_append, List.mem_cons, hmem] at ha ⊢; tauto
    · simp only [List.mem_append, List.mem_cons, hmem] at hb ⊢; tauto

/-- **C68** for reports of up to twelve findings (sorted by insertion sort; the model has no bound) whose sort keys
differ when the findings do: no finding is listed twice, although the comparison function is not an ordering when
findings about storage root and objects are mixed.  Missing: colliding keys (`C68_full_fails`), the other algorithms
used by `slices.SortFunc` for longer mixed reports. -/
theorem C68_once_partial {l : List ValErr} (hd : KeysDiffer l) :
    (compacted (insertionSort validationLess l)).Pairwise (fun a b => ¬ SameFinding a b) := by
  refine compacted_once ?_
  have h := insertionFold_grouped (l := l) (acc := []) hd (fun a c b hs => by cases hs) List.Pairwise.nil
  intro a c b hs hab
  refine hab.trans (h b c a ?_ hab.symm)
  have := List.Sublist.reverse hs
  unfold insertionSort at this
  rwa [List.reverse_reverse] at this

/-- **C68** for reports of any length about one kind (storage root, or objects), whatever the sorting algorithm: it
is enough that the result is sorted, which `slices.SortFunc` guarantees for an ordering. -/
theorem C68_once_one_kind_partial {l sorted : List ValErr} (hp : sorted.Perm l)
    (hs : sorted.Pairwise (fun a b => validationLess b a = false)) (hd : KeysDiffer l) :
    (compacted sorted).Pairwise (fun a b => ¬ SameFinding a b) := by
  refine compacted_once (fun a c b h hab => ?_)
  have h3 := List.Pairwise.sublist h hs
  simp only [List.pairwise_cons, List.mem_cons, List.not_mem_nil, or_false, forall_eq_or_imp, forall_eq] at h3
  obtain ⟨⟨h3, h4⟩, h5, _⟩ := h3
  obtain ⟨k1, k2⟩ := validationLess_false h3
  obtain ⟨k3, k4⟩ := validationLess_false h5
  refine hd a (hp.mem_iff.1 (h.subset (by simp))) c (hp.mem_iff.1 (h.subset (by simp))) (strLe_antisymm k2 ?_)
  rw [(sameFinding_key hab).1]
  exact k4

/-- The comparison of sort keys without separators: two findings about different objects have the same key and keep
two equal findings apart. -/
theorem C68_full_fails : ¬ C68_full := by
  intro hf
  have h := hf [⟨"E001".toList, [], "E001x".toList, "o".toList, []⟩, ⟨"E001".toList, [], "x".toList, "oE001".toList, []⟩,
    ⟨"E001".toList, [], "E001x".toList, "o".toList, []⟩] (by decide)
  have he : compacted (insertionSort validationLess [⟨"E001".toList, [], "E001x".toList, "o".toList, []⟩,
      ⟨"E001".toList, [], "x".toList, "oE001".toList, []⟩, ⟨"E001".toList, [], "E001x".toList, "o".toList, []⟩]) =
    [⟨"E001".toList, [], "E001x".toList, "o".toList, []⟩, ⟨"E001".toList, [], "x".toList, "oE001".toList, []⟩,
      ⟨"E001".toList, [], "E001x".toList, "o".toList, []⟩] := by decide
  rw [he] at h
  exact (List.pairwise_cons.1 h).1 _ (by simp) ⟨rfl, rfl, rfl⟩

/-- a mixed report with repeated findings -/
def exReport : List ValErr :=
  [⟨"E050".toList, [], "a".toList, "object 'x'".toList, []⟩, ⟨"E072".toList, [], [], "storage root 'y'".toList, []⟩,
   ⟨"E050".toList, [], "a".toList, "object 'x'".toList, []⟩, ⟨"E036".toList, [], [], "object 'x'".toList, []⟩,
   ⟨"E072".toList, [], [], "storage root 'y'".toList, []⟩]

example : KeysDiffer exReport ∧ (compacted (insertionSort validationLess exReport)).length = 3 := by
  constructor
  · have : ∀ a ∈ exReport, ∀ b ∈ exReport, sortKey a = sortKey b →
      a.context = b.context ∧ a.code = b.code ∧ a.description2 = b.description2 := by decide
    exact this
  · decide

/-- `C68_once_one_kind_partial` applies to the findings about the object, `C45` and `C67` to all of them -/
example : (compacted (insertionSort validationLess (exReport.filter (fun e => !isRoot e)))).Pairwise
    (fun a b => ¬ SameFinding a b) := by
  refine C68_once_one_kind_partial (l := exReport.filter (fun e => !isRoot e)) (by decide) (by decide) ?_
  have : ∀ a ∈ exReport.filter (fun e => !isRoot e), ∀ b ∈ exReport.filter (fun e => !isRoot e),
    sortKey a = sortKey b → a.context = b.context ∧ a.code = b.code ∧ a.description2 = b.description2 := by decide
  exact this

example : ∃ n, errorCount (compacted (insertionSort validationLess exReport)) = some n ∧
    (n = 0 ↔ ∀ e ∈ exReport, e.code.head? ≠ some 'E') := C67_verdict (by decide) (by decide)

/-! ## Specification version of findings (C69) -/

/-- **C69, full statement** (false): the details referred to are those of the specification version of the object. -/
def C69_full : Prop :=
  ∀ (text : Str → Str → Str) (code desc ctx : Str) (e : ValErr), code ∈ codes11 →
    record text "1.1".toList code desc ctx = some e → e.detailString = "ocfl11.".toList ++ code

/-- **C69** for findings straight from the table. -/
theorem C69_detail_partial (text : Str → Str → Str) {v c : Str} {e : ValErr} (hc : c ∈ errTable v)
    (h : getValidationError text v c = some e) :
    e.detailString = (if v = "1.1".toList then "ocfl11.".toList else "ocfl10.".toList) ++ c := by
  unfold getValidationError tableEntry at h
  rw [if_pos hc] at h
  cases h
  unfold ValErr.detailString
  by_cases hv : v = "1.1".toList
  · simp only [if_pos hv]; rfl
  · simp only [if_neg hv]; rfl

/-- **C69 fails** for every finding that is recorded: its details are those of version 1.0. -/
theorem C69_full_fails_recorded (text : Str → Str → Str) {v c d x : Str} {e : ValErr} (h : record text v c d x = some e) :
    e.detailString = "ocfl10.".toList ++ e.code := by
  unfold record at h
  cases hg : getValidationError text v c with
  | none => rw [hg] at h; cases h
  | some e0 => rw [hg] at h; cases h; rfl

theorem C69_full_fails : ¬ C69_full := by
  intro hf
  obtain ⟨e, he, _⟩ := record_code (text := fun _ _ => []) (v := "1.1".toList) (c := "E001".toList) (d := []) (x := [])
  have h1 := hf _ "E001".toList [] [] e (by decide) he
  rw [C69_full_fails_recorded _ he] at h1
  have := congrArg (fun l => l.take 7) h1
  revert this
  decide +revert

end Gocfl
