import Verif.Model.Manager

/-!
# C55, C56: exclusion and order of extensions
-/

namespace Gocfl

variable {α : Type} {name : α → Str}

/-! ## Ranks -/

theorem rankFrom_not_mem {n : Str} {xs : List Str} (h : n ∉ xs) (i acc : Nat) : rankFrom n i acc xs = acc := by
  induction xs generalizing i acc with
  | nil => rfl
  | cons x xs ih =>
    simp only [List.mem_cons, not_or] at h
    rw [rankFrom, if_neg (fun e => h.1 e.symm), ih h.2]

theorem rankFrom_mem {n : Str} {xs : List Str} (hn : xs.Nodup) (h : n ∈ xs) (i acc : Nat) :
    rankFrom n i acc xs = i + xs.idxOf n := by
  induction xs generalizing i acc with
  | nil => simp at h
  | cons x xs ih =>
    rw [List.nodup_cons] at hn
    rw [rankFrom]
    by_cases e : x = n
    · subst e
      rw [if_pos rfl, rankFrom_not_mem hn.1, List.idxOf_cons_self]; rfl
    · rw [if_neg e]
      have hm : n ∈ xs := by
        rcases List.mem_cons.1 h with h | h
        · exact absurd h.symm e
        · exact h
      rw [ih hn.2 hm, List.idxOf_cons_ne _ e]
      omega

/-- in a list without repetition the rank is the position -/
theorem rank_mem {n : Str} {xs : List Str} (hn : xs.Nodup) (h : n ∈ xs) : rank xs n = xs.idxOf n := by
  unfold rank; rw [rankFrom_mem hn h]; omega

/-! ## Exclusion -/

theorem keepFirst_others (g : List Str) (l : List α) (seen : Bool) :
    (keepFirst name g seen l).filter (fun e => decide (name e ∉ g)) = l.filter (fun e => decide (name e ∉ g)) := by
  induction l generalizing seen with
  | nil => rfl
  | cons e l ih =>
    rw [keepFirst]
    by_cases h : name e ∈ g
    · rw [if_pos h]
      split
      · rw [ih, List.filter_cons, if_neg (by simpa using h)]
      · rw [List.filter_cons, if_neg (by simpa using h), ih, List.filter_cons, if_neg (by simpa using h)]
    · rw [if_neg h, List.filter_cons, if_pos (by simpa using h), ih, List.filter_cons, if_pos (by simpa using h)]

theorem keepFirst_members (g : List Str) (l : List α) (seen : Bool) :
    (keepFirst name g seen l).filter (fun e => decide (name e ∈ g)) =
      if seen then [] else (l.filter (fun e => decide (name e ∈ g))).take 1 := by
  induction l generalizing seen with
  | nil => cases seen <;> rfl
  | cons e l ih =>
    rw [keepFirst]
    by_cases h : name e ∈ g
    · rw [if_pos h]
      cases seen
      · simp only [Bool.false_eq_true, if_false]
        rw [List.filter_cons_of_pos (by simpa using h), ih, List.filter_cons_of_pos (by simpa using h)]
        rfl
      · simp only [if_true]
        rw [ih]; rfl
    · rw [if_neg h, List.filter_cons_of_neg (by simpa using h), ih, List.filter_cons_of_neg (by simpa using h)]

theorem keepFirst_sublist (g : List Str) (l : List α) (seen : Bool) : (keepFirst name g seen l).Sublist l := by
  induction l generalizing seen with
  | nil => exact List.Sublist.refl _
  | cons e l ih =>
    rw [keepFirst]
    split
    · split
      · exact (ih true).cons _
      · exact (ih true).cons_cons _
    · exact (ih seen).cons_cons _

/-- what a user expects to remain of a group: the entry whose name is listed first -/
def Best (name : α → Str) (g : List Str) (l : List α) (e : α) : Prop :=
  e ∈ l ∧ name e ∈ g ∧ ∀ e' ∈ l, name e' ∈ g → g.idxOf (name e) ≤ g.idxOf (name e')

theorem Excluded.others {g : List Str} {l r : List α} (h : Excluded name g l r) :
    (r.filter (fun e => decide (name e ∉ g))).Perm (l.filter (fun e => decide (name e ∉ g))) := by
  obtain ⟨s, hs, rfl⟩ := h
  rw [keepFirst_others]
  exact hs.1.filter _

theorem Excluded.subperm {g : List Str} {l r : List α} (h : Excluded name g l r) : r.Subperm l := by
  obtain ⟨s, hs, rfl⟩ := h
  exact (keepFirst_sublist g s false).subperm.trans hs.1.subperm

theorem Excluded.atMostOne {g : List Str} {l r : List α} (h : Excluded name g l r) :
    (r.filter (fun e => decide (name e ∈ g))).length ≤ 1 := by
  obtain ⟨s, hs, rfl⟩ := h
  rw [keepFirst_members]
  simp

theorem Excluded.best {g : List Str} (hn : g.Nodup) {l r : List α} (h : Excluded name g l r)
    (hp : ∃ e ∈ l, name e ∈ g) : ∃ e, r.filter (fun e => decide (name e ∈ g)) = [e] ∧ Best name g l e := by
  obtain ⟨s, hs, rfl⟩ := h
  rw [keepFirst_members]
  simp only [Bool.false_eq_true, if_false]
  obtain ⟨e0, h0, h1⟩ := hp
  have hmem : e0 ∈ s.filter (fun e => decide (name e ∈ g)) :=
    List.mem_filter.2 ⟨hs.1.mem_iff.2 h0, by simpa using h1⟩
  cases hf : s.filter (fun e => decide (name e ∈ g)) with
  | nil => rw [hf] at hmem; simp at hmem
  | cons e t =>
    refine ⟨e, by simp, ?_⟩
    have hes : e ∈ s.filter (fun e => decide (name e ∈ g)) := by rw [hf]; simp
    obtain ⟨hes, heg⟩ := List.mem_filter.1 hes
    have heg : name e ∈ g := by simpa using heg
    refine ⟨hs.1.mem_iff.1 hes, heg, ?_⟩
    intro e' he' hg'
    have hpw : (e :: t).Pairwise (fun a b => rank g (name a) ≤ rank g (name b)) := by
      rw [← hf]; exact hs.2.filter _
    have : e' ∈ e :: t := by
      rw [← hf]; exact List.mem_filter.2 ⟨hs.1.mem_iff.2 he', by simpa using hg'⟩
    rw [← rank_mem hn heg, ← rank_mem hn hg']
    rcases List.mem_cons.1 this with rfl | ht
    · exact le_rfl
    · exact (List.pairwise_cons.1 hpw).1 e' ht

theorem ExcludedAll.subperm {gs : List (List Str)} {l r : List α} (h : ExcludedAll name gs l r) : r.Subperm l := by
  induction h with
  | nil => exact List.Subperm.refl _
  | cons h _ ih => exact ih.trans h.subperm

theorem ExcludedAll.atMostOne {gs : List (List Str)} {l r : List α} (h : ExcludedAll name gs l r) :
    ∀ g ∈ gs, (r.filter (fun e => decide (name e ∈ g))).length ≤ 1 := by
  induction h with
  | nil => simp
  | cons h t ih =>
    intro g' hg'
    rcases List.mem_cons.1 hg' with rfl | hg'
    · exact le_trans ((t.subperm).filter _).length_le h.atMostOne
    · exact ih g' hg'

theorem filter_filter_of_imp {p q : α → Bool} (h : ∀ a, p a = true → q a = true) (l : List α) :
    (l.filter q).filter p = l.filter p := by
  rw [List.filter_filter]
  congr 1
  funext a
  cases hp : p a with
  | false => rfl
  | true => simp [h a hp]

/-- entries no group names all remain -/
theorem ExcludedAll.others {gs : List (List Str)} {l r : List α} (h : ExcludedAll name gs l r) (p : α → Bool)
    (hp : ∀ e, p e = true → ∀ g ∈ gs, name e ∉ g) : (r.filter p).Perm (l.filter p) := by
  induction h with
  | nil => exact List.Perm.refl _
  | @cons g gs l m r h t ih =>
    refine (ih (fun e he g' hg' => hp e he g' (by simp [hg']))).trans ?_
    have hq : ∀ a, p a = true → decide (name a ∉ g) = true := by
      intro a ha; simpa using hp a ha g (by simp)
    rw [← filter_filter_of_imp (q := fun e => decide (name e ∉ g)) hq m,
      ← filter_filter_of_imp (q := fun e => decide (name e ∉ g)) hq l]
    exact h.others.filter _

theorem Best.perm_filter {g : List Str} {l m : List α}
    (h : (m.filter (fun e => decide (name e ∈ g))).Perm (l.filter (fun e => decide (name e ∈ g)))) {e : α}
    (hb : Best name g m e) : Best name g l e := by
  obtain ⟨h1, h2, h3⟩ := hb
  have key : ∀ x, name x ∈ g → (x ∈ m ↔ x ∈ l) := by
    intro x hx
    have := h.mem_iff (a := x)
    simp only [List.mem_filter, decide_eq_true_eq] at this
    constructor
    · intro hm; exact (this.1 ⟨hm, hx⟩).1
    · intro hl; exact (this.2 ⟨hl, hx⟩).1
  exact ⟨(key e h2).1 h1, h2, fun e' he' hg' => h3 e' ((key e' hg').2 he') hg'⟩

/-- groups without common names -/
def DisjointGroups (gs : List (List Str)) : Prop := gs.Pairwise (fun g g' => ∀ n ∈ g, n ∉ g')

theorem ExcludedAll.best {gs : List (List Str)} {l r : List α} (h : ExcludedAll name gs l r)
    (hd : DisjointGroups gs) (hn : ∀ g ∈ gs, g.Nodup) :
    ∀ g ∈ gs, (∃ e ∈ l, name e ∈ g) → ∃ e, r.filter (fun e => decide (name e ∈ g)) = [e] ∧ Best name g l e := by
  induction h with
  | nil => simp
  | @cons g0 gs l m r h t ih =>
    intro g hg hp
    obtain ⟨hd1, hd2⟩ := List.pairwise_cons.1 hd
    rcases List.mem_cons.1 hg with rfl | hg
    · obtain ⟨e, he, hb⟩ := h.best (hn g (by simp)) hp
      refine ⟨e, ?_, hb⟩
      have := t.others (fun e => decide (name e ∈ g)) (fun e he g' hg' => hd1 g' hg' _ (by simpa using he))
      rw [he] at this
      exact List.perm_singleton.1 this
    · have hperm : (m.filter (fun e => decide (name e ∈ g))).Perm (l.filter (fun e => decide (name e ∈ g))) := by
        have hq : ∀ a, decide (name a ∈ g) = true → decide (name a ∉ g0) = true := by
          intro a ha
          simp only [decide_eq_true_eq] at ha ⊢
          exact fun h0 => hd1 g hg _ h0 ha
        rw [← filter_filter_of_imp (q := fun e => decide (name e ∉ g0)) hq m,
          ← filter_filter_of_imp (q := fun e => decide (name e ∉ g0)) hq l]
        exact h.others.filter _
      obtain ⟨e0, h0, h1⟩ := hp
      have : e0 ∈ m := by
        have := hperm.mem_iff (a := e0)
        simp only [List.mem_filter, decide_eq_true_eq] at this
        exact (this.2 ⟨h0, h1⟩).1
      obtain ⟨e, he, hb⟩ := ih hd2 (fun g hg => hn g (by simp [hg])) g hg ⟨e0, this, h1⟩
      exact ⟨e, he, hb.perm_filter hperm⟩

/-! ## C55 -/

/-- C55 in full: of every group with a present member exactly the one listed first remains; entries not named anywhere
all remain. -/
def C55_full : Prop :=
  ∀ (α : Type) (name : α → Str) (gs : List (List Str)) (sort : Option (List Str)) (l r : List α),
    Organized name (some gs) sort l r →
    (∀ g ∈ gs, (∃ e ∈ l, name e ∈ g) → ∃ e, r.filter (fun e => decide (name e ∈ g)) = [e] ∧ Best name g l e) ∧
    ∀ p : α → Bool, (∀ e, p e = true → ∀ g ∈ gs, name e ∉ g) → (r.filter p).Perm (l.filter p)

theorem organized_some {gs : List (List Str)} {sort : Option (List Str)} {l r : List α}
    (h : Organized name (some gs) sort l r) : (l = [] ∧ r = []) ∨ ∃ m, ExcludedAll name gs l m ∧ r.Perm m := by
  unfold Organized at h
  split at h
  · left; exact ⟨by assumption, h⟩
  · obtain ⟨m, h1, h2⟩ := h
    refine .inr ⟨m, h1, ?_⟩
    cases sort with
    | none => rw [h2]
    | some s => exact h2.1

/-- C55, for all group lists and every outcome of the sorting: at most one entry of every group remains, nothing is
invented, and entries not named anywhere all remain. -/
theorem C55_at_most_one {gs : List (List Str)} {sort : Option (List Str)} {l r : List α}
    (h : Organized name (some gs) sort l r) :
    (∀ g ∈ gs, (r.filter (fun e => decide (name e ∈ g))).length ≤ 1) ∧ r.Subperm l ∧
    ∀ p : α → Bool, (∀ e, p e = true → ∀ g ∈ gs, name e ∉ g) → (r.filter p).Perm (l.filter p) := by
  rcases organized_some h with ⟨rfl, rfl⟩ | ⟨m, hm, hr⟩
  · exact ⟨by simp, List.Subperm.refl _, fun _ _ => by simp⟩
  · refine ⟨fun g hg => ?_, hr.subperm.trans hm.subperm, fun p hp => (hr.filter p).trans (hm.others p hp)⟩
    rw [(hr.filter _).length_eq]
    exact hm.atMostOne g hg

/-- C55: for groups without common names and without repetitions, exactly the present entry listed first remains of
every group.  Missing: overlapping groups and repeated names. -/
theorem C55_best_remains_partial {gs : List (List Str)} {sort : Option (List Str)} {l r : List α}
    (h : Organized name (some gs) sort l r) (hd : DisjointGroups gs) (hn : ∀ g ∈ gs, g.Nodup) :
    ∀ g ∈ gs, (∃ e ∈ l, name e ∈ g) → ∃ e, r.filter (fun e => decide (name e ∈ g)) = [e] ∧ Best name g l e := by
  rcases organized_some h with ⟨rfl, rfl⟩ | ⟨m, hm, hr⟩
  · rintro g _ ⟨e, he, _⟩; simp at he
  · intro g hg hp
    obtain ⟨e, he, hb⟩ := hm.best hd hn g hg hp
    refine ⟨e, ?_, hb⟩
    have := hr.filter (fun e => decide (name e ∈ g))
    rw [he] at this
    exact List.perm_singleton.1 this

/-- instances for examples: names are the entries -/
def nA : Str := "a".toList
def nB : Str := "b".toList
def nC : Str := "c".toList
def nX : Str := "x".toList

theorem sortedBy_intro {list : List Str} {l r : List Str} (h : r.Perm l)
    (hs : r.Pairwise (fun a b => rank list a ≤ rank list b)) : SortedBy (fun x => x) list l r := ⟨h, hs⟩

example : Organized (fun x => x) (some [[nA, nB]]) (some [nX, nA]) [nB, nX, nA] [nX, nA] := by
  unfold Organized
  rw [if_neg (by decide)]
  refine ⟨[nX, nA], .cons ⟨[nX, nA, nB], sortedBy_intro (by decide) (by decide), by decide⟩ (.nil _), ?_⟩
  exact sortedBy_intro (by decide) (by decide)

/-- C55 is violated for overlapping groups: the survivor of the first group is removed for the second one, so nothing
of the first group remains. -/
theorem C55_full_fails : ¬ C55_full := by
  intro h
  have ho : Organized (fun x => x) (some [[nA, nB], [nC, nA]]) none [nA, nB, nC] [nC] := by
    unfold Organized
    rw [if_neg (by decide)]
    refine ⟨[nC], .cons (m := [nA, nC]) ⟨[nA, nC, nB], sortedBy_intro (by decide) (by decide), by decide⟩
      (.cons ⟨[nC, nA], sortedBy_intro (by decide) (by decide), by decide⟩ (.nil _)), rfl⟩
  obtain ⟨e, he, _⟩ := (h Str (fun x => x) _ _ _ _ ho).1 [nA, nB] (by decide) ⟨nA, by decide, by decide⟩
  have : ([nC].filter (fun e => decide (e ∈ [nA, nB]))) = [] := by decide
  rw [this] at he
  simp at he

/-- C55 is violated for a group that lists a name twice: its last position counts, and the entry listed second
remains. -/
theorem C55_full_fails_repeated : ¬ C55_full := by
  intro h
  have ho : Organized (fun x => x) (some [[nA, nB, nA]]) none [nA, nB] [nB] := by
    unfold Organized
    rw [if_neg (by decide)]
    exact ⟨[nB], .cons ⟨[nB, nA], sortedBy_intro (by decide) (by decide), by decide⟩ (.nil _), rfl⟩
  obtain ⟨e, he, hb⟩ := (h Str (fun x => x) _ _ _ _ ho).1 [nA, nB, nA] (by decide) ⟨nA, by decide, by decide⟩
  have : ([nB].filter (fun e => decide (e ∈ [nA, nB, nA]))) = [nB] := by decide
  rw [this] at he
  obtain rfl : nB = e := by simpa using he
  exact absurd (hb.2.2 nA (by decide) (by decide)) (by decide)

/-! ## C56 -/

/-- C56 in full: entries named in the sort list come in that order, before all others; nothing lost or duplicated -/
def C56_full : Prop :=
  ∀ (α : Type) (name : α → Str) (s : List Str) (l r : List α), s.Nodup → Organized name none (some s) l r →
    r.Perm l ∧
    r.Pairwise (fun a b => name b ∈ s → name a ∈ s ∧ s.idxOf (name a) ≤ s.idxOf (name b))

/-- C56: nothing is lost or duplicated and the named entries are in the order of the list, for every outcome of the
sorting.  Missing: the place of the others, which is not at the end. -/
theorem C56_order_partial {s : List Str} {l r : List α} (hn : s.Nodup) (h : Organized name none (some s) l r) :
    r.Perm l ∧ r.Pairwise (fun a b => name a ∈ s → name b ∈ s → s.idxOf (name a) ≤ s.idxOf (name b)) := by
  unfold Organized at h
  split at h
  · rename_i hl; subst hl; subst h; exact ⟨List.Perm.refl _, by simp⟩
  · obtain ⟨m, h1, h2⟩ := h
    simp only at h1 h2
    subst h1
    refine ⟨h2.1, h2.2.imp ?_⟩
    intro a b hab ha hb
    rw [← rank_mem hn ha, ← rank_mem hn hb]
    exact hab

/-- with exclusion: the order holds for what remains -/
theorem C56_order_excluded_partial {gs : List (List Str)} {s : List Str} {l r : List α} (hn : s.Nodup)
    (h : Organized name (some gs) (some s) l r) :
    r.Pairwise (fun a b => name a ∈ s → name b ∈ s → s.idxOf (name a) ≤ s.idxOf (name b)) := by
  unfold Organized at h
  split at h
  · rename_i hl; subst h; simp
  · obtain ⟨m, _, h2⟩ := h
    refine h2.2.imp ?_
    intro a b hab ha hb
    rw [← rank_mem hn ha, ← rank_mem hn hb]
    exact hab

/-- C56, where the others go: in front of everything but the first named entry -/
theorem C56_others_in_front {s : List Str} {l r : List α} (hn : s.Nodup) (h : Organized name none (some s) l r) :
    r.Pairwise (fun a b => name b ∉ s → name a ∉ s ∨ s.idxOf (name a) = 0) := by
  unfold Organized at h
  split at h
  · rename_i hl; subst h; simp
  · obtain ⟨m, h1, h2⟩ := h
    refine h2.2.imp ?_
    intro a b hab hb
    by_cases ha : name a ∈ s
    · right
      have : rank s (name b) = 0 := rankFrom_not_mem hb 0 0
      rw [this, rank_mem hn ha] at hab
      omega
    · exact .inl ha

/-- C56 is violated, whatever the sorting algorithm does: an entry that is not named is put in front of the second
named one. -/
theorem C56_full_fails : ¬ C56_full := by
  intro h
  have ho : Organized (fun x => x) none (some [nA, nB]) [nB, nX] [nX, nB] := by
    unfold Organized
    rw [if_neg (by decide)]
    exact ⟨_, rfl, sortedBy_intro (by decide) (by decide)⟩
  have := (h Str (fun x => x) [nA, nB] [nB, nX] [nX, nB] (by decide) ho).2
  exact absurd ((List.pairwise_cons.1 this).1 nB (by simp) (by decide)).1 (by decide)

end Gocfl
