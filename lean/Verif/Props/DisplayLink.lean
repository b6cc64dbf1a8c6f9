import Verif.Model.DisplayLink

/-!
# C128: links of the web display lead to their objects
-/

namespace Gocfl

/-- all characters are bytes -/
def ByteStr (s : Str) : Prop := ∀ c ∈ s, c.toNat < 256

/-- **C128, in full**: for all ids that are not empty. -/
def C128_full : Prop := ∀ id, ByteStr id → id ≠ [] → requestedId (objectLink id []) = some id

theorem ofNat_toNat (c : Char) : Char.ofNat c.toNat = c := Char.ofNat_toNat c

theorem unhex_upper : ∀ n, n < 16 → unhex (upperHex n) = some n := by decide

theorem upperHex_esc : ∀ n, n < 16 → escInPath (upperHex n) = false ∧ upperHex n ≠ '/' := by decide

theorem unescape_cons {c : Char} (hc : c ≠ '%') (s : Str) : pathUnescape (c :: s) = (pathUnescape s).map (fun r => c :: r) := by
  rw [pathUnescape, if_neg hc]
  intro a b s' h
  exact absurd h hc

/-- escaping is undone -/
theorem unescape_escape {esc : Char → Bool} (hp : esc '%' = true) {s : Str} (hs : ByteStr s) (t : Str) :
    pathUnescape (escapeWith esc s ++ t) = (pathUnescape t).map (fun r => s ++ r) := by
  induction s with
  | nil => simp [escapeWith]
  | cons c s ih =>
    have ih := ih (fun x hx => hs x (List.mem_cons_of_mem _ hx))
    have hc := hs c List.mem_cons_self
    rw [escapeWith]
    split
    · simp only [List.cons_append]
      rw [pathUnescape]
      simp only [unhex_upper _ (show c.toNat / 16 < 16 by omega), unhex_upper _ (show c.toNat % 16 < 16 by omega)]
      rw [ih, Nat.div_add_mod, ofNat_toNat, Option.map_map]
      rfl
    · rename_i he
      have hne : c ≠ '%' := by
        intro h
        rw [h] at he
        exact he hp
      rw [List.cons_append, unescape_cons hne, ih, Option.map_map]
      rfl

/-- what needs no escaping is not changed by unescaping -/
theorem unescape_plain {s : Str} (hs : '%' ∉ s) : pathUnescape s = some s := by
  induction s with
  | nil => rfl
  | cons c s ih =>
    rw [unescape_cons (fun h => hs (by simp [h])), ih (fun h => hs (List.mem_cons_of_mem _ h))]
    rfl

/-- unescaping a string with `%` makes it shorter -/
theorem unescape_length : ∀ (n : Nat) (s : Str), s.length = n → ∀ t, pathUnescape s = some t →
    t.length ≤ s.length ∧ ('%' ∈ s → t.length < s.length) := by
  intro n
  induction n using Nat.strongRecOn with
  | _ n ih =>
    intro s hn t h
    unfold pathUnescape at h
    split at h
    · cases h; simp
    · rename_i a b s'
      split at h
      · obtain ⟨r, hr, rfl⟩ := Option.map_eq_some_iff.1 h
        have := ih s'.length (by subst hn; simp only [List.length_cons]; omega) s' rfl r hr
        simp only [List.length_cons]
        omega
      · cases h
    · rename_i c s' _
      split at h
      · cases h
      · rename_i hc
        obtain ⟨r, hr, rfl⟩ := Option.map_eq_some_iff.1 h
        have := ih s'.length (by subst hn; simp) s' rfl r hr
        simp only [List.length_cons]
        refine ⟨by omega, ?_⟩
        intro hm
        rcases List.mem_cons.1 hm with hm | hm
        · exact absurd hm.symm hc
        · have := this.2 hm
          omega

/-- two ways of escaping agree where they escape the same characters -/
theorem escape_agree {f g : Char → Bool} (hf : f '%' = true) (hg : g '%' = true) {s : Str} {t : Str} :
    escapeWith f s ++ t = escapeWith g s ++ t ↔ ∀ c ∈ s, f c = g c := by
  rw [List.append_left_inj]
  induction s with
  | nil => simp [escapeWith]
  | cons c s ih =>
    rw [escapeWith, escapeWith]
    cases h1 : f c <;> cases h2 : g c
    · simp [ih, h1, h2]
    · simp only [Bool.false_eq_true, if_false, if_true, List.cons.injEq, List.mem_cons, forall_eq_or_imp, h1, h2, false_and,
        iff_false]
      rintro ⟨h, _⟩
      rw [h, hf] at h1
      cases h1
    · simp only [Bool.false_eq_true, if_false, if_true, List.cons.injEq, List.mem_cons, forall_eq_or_imp, h1, h2]
      constructor
      · rintro ⟨h, _⟩
        rw [← h, hg] at h2
        cases h2
      · rintro ⟨h, _⟩
        cases h
    · simp [ih, h1, h2]

theorem escape_plain {esc : Char → Bool} {s : Str} (h : ∀ c ∈ s, esc c = false) : escapeWith esc s = s := by
  induction s with
  | nil => rfl
  | cons c s ih =>
    rw [escapeWith, if_neg (by rw [h c List.mem_cons_self]; simp), ih (fun x hx => h x (List.mem_cons_of_mem _ hx))]

theorem escape_append {esc : Char → Bool} (s t : Str) : escapeWith esc (s ++ t) = escapeWith esc s ++ escapeWith esc t := by
  induction s with
  | nil => rfl
  | cons c s ih =>
    simp only [List.cons_append, escapeWith]
    split
    · rw [ih]; rfl
    · rw [ih]; rfl

/-- the two kinds of escaping differ in three characters -/
theorem esc_differ (c : Char) : escInPath c = escInSegment c ↔ c ≠ '/' ∧ c ≠ ';' ∧ c ≠ ',' := by
  unfold escInPath escInSegment
  constructor
  · intro h
    refine ⟨?_, ?_, ?_⟩ <;> (rintro rfl; revert h; decide)
  · rintro ⟨h1, h2, h3⟩
    have : c ∈ "-_.~$&+,/:;=@".toList ↔ c ∈ "-_.~$&+:=@".toList := by
      have e1 : "-_.~$&+,/:;=@".toList = ['-', '_', '.', '~', '$', '&', '+', ',', '/', ':', ';', '=', '@'] := by decide
      have e2 : "-_.~$&+:=@".toList = ['-', '_', '.', '~', '$', '&', '+', ':', '=', '@'] := by decide
      rw [e1, e2]
      simp only [List.mem_cons, List.not_mem_nil, or_false]
      tauto
    simp only [this]

/-- escaped segments contain no slash -/
theorem pathEscape_noslash {s : Str} (hs : ByteStr s) : '/' ∉ pathEscape s := by
  unfold pathEscape
  induction s with
  | nil => simp [escapeWith]
  | cons c s ih =>
    have ih := ih (fun x hx => hs x (List.mem_cons_of_mem _ hx))
    have hc := hs c List.mem_cons_self
    rw [escapeWith]
    split
    · simp only [List.mem_cons, not_or]
      exact ⟨by decide, (upperHex_esc _ (by omega)).2.symm, (upperHex_esc _ (by omega)).2.symm, ih⟩
    · rename_i he
      simp only [List.mem_cons, not_or]
      refine ⟨?_, ih⟩
      rintro rfl
      exact he (by decide)

theorem pathEscape_ne_nil {s : Str} (hs : s ≠ []) : pathEscape s ≠ [] := by
  cases s with
  | nil => exact absurd rfl hs
  | cons c s =>
    unfold pathEscape
    rw [escapeWith]
    split <;> simp

/-- what follows the id in the links: nothing, or a slash and characters that need no escaping -/
def PlainRest (rest : Str) : Prop := (rest = [] ∨ ∃ r, rest = '/' :: r) ∧ ∀ c ∈ rest, escInPath c = false

theorem PlainRest.noPercent {rest : Str} (h : PlainRest rest) : '%' ∉ rest := by
  intro hm
  have := h.2 _ hm
  revert this
  decide

theorem routeId_eq {x rest : Str} (hx : '/' ∉ x) (hr : rest = [] ∨ ∃ r, rest = '/' :: r) :
    routeId ("/object/id/".toList ++ x ++ rest) = if x = [] then none else some x := by
  have hsplit : ∃ l, splitOn '/' ("/object/id/".toList ++ x ++ rest) = [] :: "object".toList :: "id".toList :: x :: l := by
    have e : "/object/id/".toList ++ x ++ rest = [] ++ '/' :: ("object".toList ++ '/' :: ("id".toList ++ '/' :: (x ++ rest))) := by
      simp
    rw [e, splitOn_append, splitOn_append, splitOn_append]
    rcases hr with rfl | ⟨r, rfl⟩
    · refine ⟨[], ?_⟩
      rw [List.append_nil, splitOn_noSep hx]
      rfl
    · refine ⟨splitOn '/' r, ?_⟩
      rw [splitOn_append, splitOn_noSep hx]
      rfl
  obtain ⟨l, hl⟩ := hsplit
  unfold routeId
  rw [hl]
  simp

/-- the path the routes are compared with -/
theorem routedPath_link {id rest : Str} (hb : ByteStr id) (hr : PlainRest rest) :
    routedPath (objectLink id rest) = some (if ∀ c ∈ id, c ≠ '/' ∧ c ≠ ';' ∧ c ≠ ',' then "/object/id/".toList ++ id ++ rest
      else objectLink id rest) := by
  have hpre : pathUnescape (objectLink id rest) = some ("/object/id/".toList ++ id ++ rest) := by
    unfold objectLink
    have e : "/object/id/".toList ++ pathEscape id ++ rest = escapeWith escInSegment [] ++ ("/object/id/".toList ++ (pathEscape id ++ rest)) := by
      simp [escapeWith]
    have h1 : ∀ (p t : Str), '%' ∉ p → pathUnescape (p ++ t) = (pathUnescape t).map (fun r => p ++ r) := by
      intro p t hp
      induction p with
      | nil => simp
      | cons c p ih =>
        rw [List.cons_append, unescape_cons (fun h => hp (by simp [h])), ih (fun h => hp (List.mem_cons_of_mem _ h)), Option.map_map]
        rfl
    rw [List.append_assoc, h1 _ _ (by decide)]
    unfold pathEscape
    rw [unescape_escape (by decide) hb, unescape_plain hr.noPercent]
    simp
  have hcmp : escapeWith escInPath ("/object/id/".toList ++ id ++ rest) = objectLink id rest ↔
      ∀ c ∈ id, c ≠ '/' ∧ c ≠ ';' ∧ c ≠ ',' := by
    rw [escape_append, escape_append, escape_plain (s := "/object/id/".toList) (by decide), escape_plain hr.2]
    unfold objectLink pathEscape
    rw [List.append_assoc, List.append_assoc, List.append_right_inj, escape_agree (by decide) (by decide)]
    exact forall₂_congr (fun c _ => esc_differ c)
  unfold routedPath setPath
  rw [hpre]
  simp only [Option.map_some, Option.some.injEq]
  by_cases h : ∀ c ∈ id, c ≠ '/' ∧ c ≠ ';' ∧ c ≠ ','
  · rw [if_pos (hcmp.2 h), if_pos h]
    rfl
  · rw [if_neg (fun h' => h (hcmp.1 h')), if_neg h, if_neg]
    unfold objectLink
    simp

/-- **C128.**  Exactly the ids that contain no `%`, or one of `/`, `;` and `,`, are found again by their links. -/
theorem C128_link {id rest : Str} (hb : ByteStr id) (hne : id ≠ []) (hr : PlainRest rest) :
    requestedId (objectLink id rest) = some id ↔ ('%' ∉ id ∨ '/' ∈ id ∨ ';' ∈ id ∨ ',' ∈ id) := by
  unfold requestedId
  rw [routedPath_link hb hr]
  by_cases h : ∀ c ∈ id, c ≠ '/' ∧ c ≠ ';' ∧ c ≠ ','
  · rw [if_pos h]
    have h1 : '/' ∉ id := fun hm => (h _ hm).1 rfl
    have h2 : ';' ∉ id := fun hm => (h _ hm).2.1 rfl
    have h3 : ',' ∉ id := fun hm => (h _ hm).2.2 rfl
    simp only [Option.bind_some]
    rw [routeId_eq h1 hr.1, if_neg hne]
    simp only [Option.bind_some, h1, h2, h3, or_false]
    constructor
    · intro hu hm
      have := (unescape_length _ id rfl id hu).2 hm
      omega
    · exact unescape_plain
  · rw [if_neg h]
    simp only [Option.bind_some]
    unfold objectLink
    rw [routeId_eq (pathEscape_noslash hb) hr.1, if_neg (pathEscape_ne_nil hne)]
    simp only [Option.bind_some]
    have hu := unescape_escape (esc := escInSegment) (by decide) hb []
    rw [List.append_nil] at hu
    unfold pathEscape
    rw [hu]
    simp only [pathUnescape, Option.map_some, List.append_nil, true_iff]
    by_contra hcon
    apply h
    intro c hc
    refine ⟨?_, ?_, ?_⟩ <;> (rintro rfl; tauto)

/-- No id is taken for another one, if it contains no `%`. -/
theorem C128_plain_partial {id rest : Str} (hb : ByteStr id) (hne : id ≠ []) (hp : '%' ∉ id) (hr : PlainRest rest) :
    requestedId (objectLink id rest) = some id := (C128_link hb hne hr).2 (Or.inl hp)

/-- an id with spaces and slashes, on the page of a version -/
example : requestedId (objectLink "info:a b/c".toList "/version/v1".toList) = some "info:a b/c".toList :=
  C128_plain_partial (by unfold ByteStr; decide) (by decide) (by decide) ⟨Or.inr ⟨_, rfl⟩, by decide⟩

/-- **C128 does not hold in full**: an id with `%`. -/
theorem C128_full_fails : ¬ C128_full := by
  intro h
  have := (C128_link (id := "a%20b".toList) (rest := []) (by unfold ByteStr; decide) (by decide)
    ⟨Or.inl rfl, by simp⟩).1 (h _ (by unfold ByteStr; decide) (by decide))
  revert this
  decide

/-- The link to the object `a%2Fb` leads to the object `a/b`. -/
theorem C128_full_fails_other : requestedId (objectLink "a%2Fb".toList []) = some "a/b".toList ∧
    requestedId (objectLink "a/b".toList []) = some "a/b".toList := by decide

end Gocfl
