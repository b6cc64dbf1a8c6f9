import Verif.Go.Strings

/-!
# Go `path/filepath` on Unix: `Clean`, `Join`

On Unix `filepath.ToSlash` is the identity.
-/

namespace Gocfl

/-- the stack of components after `..` -/
def popComp (rooted : Bool) : List Str → List Str
  | [] => if rooted then [] else ["..".toList]
  | a :: acc => if a = "..".toList then "..".toList :: a :: acc else acc

/-- The component loop of `filepath.Clean`: empty elements and `.` are dropped, `..` removes the last
element, or is kept at the start of a relative path, or dropped at the root.  `acc` is reversed. -/
def cleanGo (rooted : Bool) : List Str → List Str → List Str
  | acc, [] => acc.reverse
  | acc, c :: cs =>
    if c = [] ∨ c = ".".toList then cleanGo rooted acc cs
    else if c = "..".toList then cleanGo rooted (popComp rooted acc) cs
    else cleanGo rooted (c :: acc) cs

/-- `filepath.Clean` -/
def pathClean (p : Str) : Str :=
  match p with
  | '/' :: _ => '/' :: joinWith '/' (cleanGo true [] (splitOn '/' p))
  | _ =>
    match joinWith '/' (cleanGo false [] (splitOn '/' p)) with
    | [] => ".".toList
    | r => r

/-- `filepath.Join`: leading empty elements are skipped, the rest is joined with `/` and cleaned. -/
def pathJoin : List Str → Str
  | [] => []
  | [] :: es => pathJoin es
  | e :: es => pathClean (joinWith '/' (e :: es))

/-- an ordinary path component -/
def ValidComp (c : Str) : Prop := c ≠ [] ∧ c ≠ ".".toList ∧ c ≠ "..".toList ∧ '/' ∉ c

theorem splitOn_ne_nil (sep : Char) (s : Str) : splitOn sep s ≠ [] := by
  cases s with
  | nil => simp [splitOn]
  | cons c s =>
    simp only [splitOn]
    split
    · simp
    · split <;> simp

theorem splitOn_noSep {sep : Char} {s : Str} (h : sep ∉ s) : splitOn sep s = [s] := by
  induction s with
  | nil => rfl
  | cons c s ih =>
    simp only [List.mem_cons, not_or] at h
    simp [splitOn, Ne.symm h.1, ih h.2]

theorem splitOn_append (sep : Char) (a b : Str) :
    splitOn sep (a ++ sep :: b) = splitOn sep a ++ splitOn sep b := by
  induction a with
  | nil => simp [splitOn]
  | cons c a ih =>
    simp only [List.cons_append, splitOn]
    split
    · rw [ih]; rfl
    · rw [ih]
      cases h : splitOn sep a with
      | nil => exact absurd h (splitOn_ne_nil _ _)
      | cons x xs => rfl

theorem splitOn_joinWith {sep : Char} {cs : List Str} (hne : cs ≠ []) :
    splitOn sep (joinWith sep cs) = cs.flatMap (splitOn sep) := by
  induction cs with
  | nil => exact absurd rfl hne
  | cons c cs ih =>
    cases cs with
    | nil => simp [joinWith]
    | cons d cs => rw [joinWith, splitOn_append, ih (by simp)]; rfl

theorem splitOn_joinWith_noSep {sep : Char} {cs : List Str} (hne : cs ≠ []) (h : ∀ c ∈ cs, sep ∉ c) :
    splitOn sep (joinWith sep cs) = cs := by
  rw [splitOn_joinWith hne]
  clear hne
  induction cs with
  | nil => rfl
  | cons c cs ih =>
    rw [List.flatMap_cons, splitOn_noSep (h c (by simp)), ih (fun d hd => h d (by simp [hd]))]; rfl

theorem joinWith_splitOn (sep : Char) (s : Str) : joinWith sep (splitOn sep s) = s := by
  induction s with
  | nil => rfl
  | cons c s ih =>
    simp only [splitOn]
    split
    · rename_i h; subst h
      cases hs : splitOn c s with
      | nil => exact absurd hs (splitOn_ne_nil _ _)
      | cons x xs => rw [joinWith, ← hs, ih]; rfl
    · cases hs : splitOn sep s with
      | nil => exact absurd hs (splitOn_ne_nil _ _)
      | cons x xs =>
        rw [hs] at ih
        cases xs with
        | nil => simp [joinWith] at ih ⊢; exact ih
        | cons y ys => simp [joinWith] at ih ⊢; exact ih

theorem splitOn_noSep_mem {sep : Char} {s c : Str} (h : c ∈ splitOn sep s) : sep ∉ c := by
  induction s generalizing c with
  | nil => simp [splitOn] at h; subst h; simp
  | cons x s ih =>
    simp only [splitOn] at h
    split at h
    · rcases List.mem_cons.1 h with h | h
      · subst h; simp
      · exact ih h
    · rename_i hx
      cases hs : splitOn sep s with
      | nil => exact absurd hs (splitOn_ne_nil _ _)
      | cons y ys =>
        rw [hs] at h ih
        rcases List.mem_cons.1 h with h | h
        · subst h
          simp only [List.mem_cons, not_or]
          exact ⟨Ne.symm hx, ih (by simp)⟩
        · exact ih (by simp [h])

theorem joinWith_append {sep : Char} {a b : List Str} (ha : a ≠ []) (hb : b ≠ []) :
    joinWith sep (a ++ b) = joinWith sep a ++ sep :: joinWith sep b := by
  induction a with
  | nil => exact absurd rfl ha
  | cons x a ih =>
    cases a with
    | nil =>
      cases b with
      | nil => exact absurd rfl hb
      | cons y b => rfl
    | cons y a =>
      have := ih (by simp)
      rw [List.cons_append] at this ⊢
      rw [List.cons_append, joinWith, joinWith, this]; simp

theorem joinWith_cons {sep : Char} {a : Str} {b : List Str} (hb : b ≠ []) :
    joinWith sep (a :: b) = a ++ sep :: joinWith sep b := by
  cases b with
  | nil => exact absurd rfl hb
  | cons => rfl

theorem joinWith_ne_nil {sep : Char} {cs : List Str} (hne : cs ≠ []) (h : ∀ c ∈ cs, c ≠ []) :
    joinWith sep cs ≠ [] := by
  cases cs with
  | nil => exact absurd rfl hne
  | cons c cs =>
    cases cs with
    | nil => exact h c (by simp)
    | cons d cs => rw [joinWith]; simp

/-! ## Cleaning ordinary paths -/

theorem cleanGo_valid {cs : List Str} (h : ∀ c ∈ cs, ValidComp c) (rooted : Bool) (acc : List Str) :
    cleanGo rooted acc cs = acc.reverse ++ cs := by
  induction cs generalizing acc with
  | nil => simp [cleanGo]
  | cons c cs ih =>
    obtain ⟨h1, h2, h3, _⟩ := h c (by simp)
    rw [cleanGo, if_neg (by simp only [not_or]; exact ⟨h1, h2⟩), if_neg h3,
      ih (fun d hd => h d (by simp [hd]))]
    simp

theorem cleanGo_append {rooted : Bool} {cs ds : List Str} (h : ∀ c ∈ cs, ValidComp c) (acc : List Str) :
    cleanGo rooted acc (cs ++ ds) = cleanGo rooted (cs.reverse ++ acc) ds := by
  induction cs generalizing acc with
  | nil => rfl
  | cons c cs ih =>
    obtain ⟨h1, h2, h3, _⟩ := h c (by simp)
    rw [List.cons_append, cleanGo, if_neg (by simp only [not_or]; exact ⟨h1, h2⟩), if_neg h3,
      ih (fun d hd => h d (by simp [hd]))]
    simp

/-- every result component is an ordinary one or `..` -/
theorem cleanGo_comps {rooted : Bool} {cs : List Str} (hcs : ∀ c ∈ cs, '/' ∉ c) {acc : List Str}
    (hacc : ∀ c ∈ acc, ValidComp c ∨ c = "..".toList) :
    ∀ c ∈ cleanGo rooted acc cs, ValidComp c ∨ c = "..".toList := by
  induction cs generalizing acc with
  | nil => intro c hc; rw [cleanGo, List.mem_reverse] at hc; exact hacc c hc
  | cons x cs ih =>
    have ih := fun acc h => ih (acc := acc) (fun c hc => hcs c (by simp [hc])) h
    rw [cleanGo]
    split
    · exact ih acc hacc
    · rename_i h1
      split
      · rename_i h2
        refine ih _ ?_
        intro c hc
        cases acc with
        | nil =>
          rw [popComp] at hc
          split at hc
          · simp at hc
          · rw [List.mem_singleton] at hc; rw [hc]; exact Or.inr rfl
        | cons a acc' =>
          rw [popComp] at hc
          split at hc
          · rcases List.mem_cons.1 hc with rfl | hc
            · exact Or.inr rfl
            · exact hacc c hc
          · exact hacc c (by simp [hc])
      · rename_i h2
        refine ih _ ?_
        intro c hc
        rcases List.mem_cons.1 hc with rfl | hc
        · simp only [not_or] at h1
          exact Or.inl ⟨h1.1, h1.2, h2, hcs c (by simp)⟩
        · exact hacc c hc

/-- Walking along the components of a path, starting `d` levels below some directory: the level reached
at the end, or `none` if the walk leaves that directory. -/
def walk : Nat → List Str → Option Nat
  | d, [] => some d
  | d, c :: cs =>
    if c = [] ∨ c = ".".toList then walk d cs
    else if c = "..".toList then (if d = 0 then none else walk (d - 1) cs)
    else walk (d + 1) cs

/-- A walk that never leaves its start directory cleans to ordinary components below it. -/
theorem cleanGo_walk {cs : List Str} (hcs : ∀ c ∈ cs, '/' ∉ c) {acc base : List Str} {k : Nat}
    (hacc : ∀ c ∈ acc, ValidComp c) (hw : walk acc.length cs = some k) :
    ∃ res : List Str, res.length = k ∧ (∀ c ∈ res, ValidComp c) ∧
      ∀ rooted, cleanGo rooted (acc ++ base) cs = base.reverse ++ res := by
  induction cs generalizing acc k with
  | nil =>
    refine ⟨acc.reverse, ?_, ?_, ?_⟩
    · simp only [walk, Option.some.injEq] at hw; simp [hw]
    · intro c hc; exact hacc c (List.mem_reverse.1 hc)
    · intro r; simp [cleanGo]
  | cons x cs ih =>
    have hcs' : ∀ c ∈ cs, '/' ∉ c := fun c hc => hcs c (by simp [hc])
    rw [walk] at hw
    split at hw
    · rename_i h1
      obtain ⟨res, r1, r2, r3⟩ := ih hcs' hacc hw
      exact ⟨res, r1, r2, fun r => by rw [cleanGo, if_pos h1]; exact r3 r⟩
    · rename_i h1
      split at hw
      · rename_i h2
        cases acc with
        | nil => simp at hw
        | cons a acc =>
          rw [if_neg (by simp)] at hw
          obtain ⟨res, r1, r2, r3⟩ := ih hcs' (acc := acc) (fun c hc => hacc c (by simp [hc]))
            (by simpa using hw)
          refine ⟨res, r1, r2, fun r => ?_⟩
          rw [List.cons_append, cleanGo, if_neg h1, if_pos h2, popComp, if_neg (hacc a (by simp)).2.2.1]
          exact r3 r
      · rename_i h2
        simp only [not_or] at h1
        obtain ⟨res, r1, r2, r3⟩ := ih hcs' (acc := x :: acc) (by
          intro c hc
          rcases List.mem_cons.1 hc with rfl | hc
          · exact ⟨h1.1, h1.2, h2, hcs c (by simp)⟩
          · exact hacc c hc) (by simpa using hw)
        refine ⟨res, r1, r2, fun r => ?_⟩
        rw [cleanGo, if_neg (by simp only [not_or]; exact h1), if_neg h2]
        exact r3 r

theorem pathClean_rel {p : Str} (h : ∀ r, p ≠ '/' :: r) :
    pathClean p = match joinWith '/' (cleanGo false [] (splitOn '/' p)) with
      | [] => ".".toList
      | r => r := by
  unfold pathClean
  split
  · rename_i r; exact absurd rfl (h r)
  · rfl

theorem pathClean_ne_nil (p : Str) : pathClean p ≠ [] := by
  unfold pathClean
  split
  · simp
  · split
    · decide
    · rename_i h; exact h

/-- A path of ordinary components is clean already. -/
theorem pathClean_valid {cs : List Str} (hne : cs ≠ []) (h : ∀ c ∈ cs, ValidComp c) :
    pathClean (joinWith '/' cs) = joinWith '/' cs := by
  have hns : ∀ c ∈ cs, '/' ∉ c := fun c hc => (h c hc).2.2.2
  have hj : joinWith '/' cs ≠ [] := joinWith_ne_nil hne (fun c hc => (h c hc).1)
  rw [pathClean_rel]
  · rw [splitOn_joinWith_noSep hne hns, cleanGo_valid h]
    simp only [List.reverse_nil, List.nil_append]
  · intro r hr
    cases cs with
    | nil => exact hne rfl
    | cons c cs =>
      cases hc : c with
      | nil => exact (h c (by simp)).1 hc
      | cons x c' =>
        have hx : x ≠ '/' := by
          rintro rfl; exact hns c (by simp) (by rw [hc]; simp)
        cases cs with
        | nil => rw [joinWith, hc] at hr; exact hx (List.cons.inj hr).1
        | cons d cs => rw [joinWith, hc] at hr; exact hx (List.cons.inj hr).1

theorem not_rooted_of_valid {c t : Str} (h : ValidComp c) : ∀ r, c ++ t ≠ '/' :: r := by
  intro r hr
  cases c with
  | nil => exact h.1 rfl
  | cons x c =>
    rw [List.cons_append] at hr
    have := (List.cons.inj hr).1
    subst this; exact h.2.2.2 (by simp)

theorem joinWith_nil_iff_of_comps {cs : List Str} (h : ∀ c ∈ cs, c ≠ []) :
    joinWith '/' cs = [] ↔ cs = [] := by
  constructor
  · intro hj; by_contra hne; exact joinWith_ne_nil hne h hj
  · rintro rfl; rfl

/-- `Clean` of a relative path whose first component is ordinary. -/
theorem pathClean_cons {c : Str} (hc : ValidComp c) {t : Str} {r : List Str}
    (hr : cleanGo false [] (c :: splitOn '/' t) = r) (hne : ∀ x ∈ r, x ≠ []) :
    pathClean (c ++ '/' :: t) = if r = [] then ".".toList else joinWith '/' r := by
  rw [pathClean_rel (not_rooted_of_valid hc), splitOn_append, splitOn_noSep hc.2.2.2]
  rw [List.singleton_append, hr]
  split
  · rename_i h; rw [if_pos ((joinWith_nil_iff_of_comps hne).1 h)]
  · rename_i h
    rw [if_neg]; rintro rfl; exact h rfl

/-- Decomposition of a clean relative path into ordinary components. -/
def CleanRel (p : Str) : Prop := ∃ cs : List Str, cs ≠ [] ∧ (∀ c ∈ cs, ValidComp c) ∧ p = joinWith '/' cs

theorem CleanRel.clean {p : Str} (h : CleanRel p) : pathClean p = p := by
  obtain ⟨cs, h1, h2, rfl⟩ := h; exact pathClean_valid h1 h2

theorem CleanRel.ne_nil {p : Str} (h : CleanRel p) : p ≠ [] := by
  obtain ⟨cs, h1, h2, rfl⟩ := h; exact joinWith_ne_nil h1 (fun c hc => (h2 c hc).1)

theorem CleanRel.join {p q : Str} (hp : CleanRel p) (hq : CleanRel q) : CleanRel (p ++ '/' :: q) := by
  obtain ⟨cs, h1, h2, rfl⟩ := hp
  obtain ⟨ds, h3, h4, rfl⟩ := hq
  refine ⟨cs ++ ds, by simp [h1], ?_, (joinWith_append h1 h3).symm⟩
  intro c hc
  rcases List.mem_append.1 hc with hc | hc
  · exact h2 c hc
  · exact h4 c hc

/-- Joining clean relative paths is plain concatenation. -/
theorem pathJoin_two {p q : Str} (hp : CleanRel p) (hq : CleanRel q) :
    pathJoin [p, q] = p ++ '/' :: q := by
  have hne := hp.ne_nil
  cases p with
  | nil => exact absurd rfl hne
  | cons c p => exact (hp.join hq).clean

end Gocfl
