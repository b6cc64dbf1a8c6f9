import Verif.Model.StateLemmas

/-! # Mirror deletion at object level -/

namespace Gocfl

/-- Go `slices.Compact` on strings: consecutive equal elements are collapsed. -/
def slicesCompact : List Str → List Str
  | [] => []
  | [a] => [a]
  | a :: b :: l => if a = b then slicesCompact (b :: l) else a :: slicesCompact (b :: l)

/-- pkg/ocfl/objectbase.go:509-523 `ObjectBase.echoDelete`.  `updateFiles` are the logical paths
submitted in the session; `basePath` is what `BuildObjectStatePath(object, ".", "")` returned. -/
def objEchoDelete (inv : Inv) (updateFiles : List Str) (basePath : Str) : Res Inv :=
  echoDelete inv (slicesCompact (sortStr updateFiles))
    (if basePath = ".".toList then [] else basePath)

theorem mem_slicesCompact (l : List Str) (x : Str) : x ∈ slicesCompact l ↔ x ∈ l := by
  induction l with
  | nil => rfl
  | cons a l ih =>
    cases l with
    | nil => rfl
    | cons b l =>
      simp only [slicesCompact]
      split
      · rename_i h; subst h; rw [ih]; simp
      · rw [List.mem_cons, ih]; simp

theorem slicesCompact_sublist (l : List Str) : (slicesCompact l).Sublist l := by
  induction l with
  | nil => exact List.Sublist.refl _
  | cons a l ih =>
    cases l with
    | nil => exact List.Sublist.refl _
    | cons b l =>
      simp only [slicesCompact]
      split
      · exact ih.trans (List.sublist_cons_self _ _)
      · exact ih.cons_cons a

/-- Deleting a list of paths one after the other. -/
theorem foldlM_delete {inv : Inv} {s : DMap} (hs : headState inv = .ok s) (l : List Str) :
    ∃ inv' s', l.foldlM (fun i f => deleteFile i f) inv = .ok inv' ∧ headState inv' = .ok s' ∧
      HeadOnly inv inv' ∧ (∀ p d, InSt s' p d ↔ InSt s p d ∧ p ∉ l) ∧
      inv'.manifest = inv.manifest ∧ inv'.fixity = inv.fixity ∧
      (inv'.modified = false → ∀ p d, InSt s p d → p ∉ l) ∧
      mkeys s' = mkeys s ∧ (statePaths s').Sublist (statePaths s) ∧
      (inv.modified = true → inv'.modified = true) := by
  induction l generalizing inv s with
  | nil =>
    exact ⟨inv, s, rfl, hs, HeadOnly.refl _, by simp, rfl, rfl, by simp, rfl, List.Sublist.refl _, id⟩
  | cons f l ih =>
    have h1 := deleteFile_of_headState hs f
    obtain ⟨inv', s', a1, a2, a3, a4, a5, a6, a7, a8, a9, a10⟩ :=
      ih (headState_set_modified hs (stDelete s f) (inv.modified || s.any (fun e => decide (f ∈ e.2))))
    refine ⟨inv', s', ?_, a2, (deleteFile_headOnly h1).trans a3, ?_, ?_, ?_, ?_, ?_, ?_, ?_⟩
    · rw [List.foldlM_cons, h1, res_bind_ok]; exact a1
    · intro p d
      rw [a4, inSt_stDelete, List.mem_cons, not_or]; tauto
    · rw [a5]; simp
    · rw [a6]; simp
    · intro hm p d hp hpl
      have hmod : (inv.modified || s.any (fun e => decide (f ∈ e.2))) = false := by
        cases hh : (inv.modified || s.any (fun e => decide (f ∈ e.2))) with
        | false => rfl
        | true => have := a10 hh; rw [hm] at this; cases this
      simp only [Bool.or_eq_false_iff, List.any_eq_false, decide_eq_true_eq] at hmod
      have hf : ∀ d, ¬ InSt s f d := by rintro d ⟨ps, h1, h2⟩; exact hmod.2 _ h1 h2
      rcases List.mem_cons.1 hpl with rfl | hpl
      · exact hf d hp
      · have hpf : p ≠ f := by rintro rfl; exact hf d hp
        have hin : InSt (stDelete s f) p d := (inSt_stDelete _ _ _ _).2 ⟨hpf, hp⟩
        exact a7 hm p d hin hpl
    · rw [a8, mkeys_stDelete]
    · refine a9.trans ?_
      rw [statePaths_stDelete]; exact List.filter_sublist
    · intro h; exact a10 (by simp [h])

end Gocfl
