import Verif.Model.Names
import Mathlib.Data.List.DropRight

/-!
# C64: portable file names
-/

namespace Gocfl

/-! ## One name -/

theorem forbidden_underscore : isForbidden '_' = false ∧ isForbidden2 '_' = false := by decide

theorem replaceForbidden_free {bad : Char → Bool} (hb : bad '_' = false) (n : Str) :
    ∀ c ∈ replaceForbidden bad n, bad c = false := by
  intro c hc
  obtain ⟨x, _, rfl⟩ := List.mem_map.1 hc
  split
  · exact hb
  · simp_all

theorem replaceForbidden_id {bad : Char → Bool} {n : Str} (h : ∀ c ∈ n, bad c = false) :
    replaceForbidden bad n = n := by
  unfold replaceForbidden
  conv_rhs => rw [← List.map_id n]
  refine List.map_congr_left ?_
  intro c hc
  rw [h c hc]; rfl

theorem trimName_infix (n : Str) : (trimName n).IsInfix n := by
  unfold trimName
  exact (List.rdropWhile_prefix isBlank (n.dropWhile isLeading)).isInfix.trans
    (List.dropWhile_suffix isLeading).isInfix

theorem trimName_mem {n : Str} {c : Char} (h : c ∈ trimName n) : c ∈ n := (trimName_infix n).mem h

/-- no leading blank, dash or tilde -/
theorem trimName_head {n : Str} {c : Char} {r : Str} (h : trimName n = c :: r) : isLeading c = false := by
  unfold trimName at h
  have hp : (c :: r) <+: n.dropWhile isLeading := by
    rw [← h]; exact List.rdropWhile_prefix isBlank (n.dropWhile isLeading)
  obtain ⟨t, ht⟩ := hp
  have := List.head?_dropWhile_not isLeading n
  rw [← ht] at this
  simpa using this

/-- no trailing blank -/
theorem trimName_last {n : Str} {c : Char} {r : Str} (h : trimName n = r ++ [c]) : isBlank c = false := by
  unfold trimName at h
  have h' : (n.dropWhile isLeading).reverse.dropWhile isBlank = c :: r.reverse := by
    have := congrArg List.reverse h
    simpa using this
  have := List.head?_dropWhile_not isBlank (n.dropWhile isLeading).reverse
  rw [h'] at this
  simpa using this

theorem trimName_of {n : Str} (hh : ∀ c r, n = c :: r → isLeading c = false)
    (hl : ∀ c r, n = r ++ [c] → isBlank c = false) : trimName n = n := by
  unfold trimName
  have h1 : n.dropWhile isLeading = n := by
    cases n with
    | nil => rfl
    | cons c r => rw [List.dropWhile_cons_of_neg (by rw [hh c r rfl]; decide)]
  rw [h1]
  have h2 : n.reverse.dropWhile isBlank = n.reverse := by
    cases hr : n.reverse with
    | nil => rfl
    | cons c r =>
      have : n = r.reverse ++ [c] := by
        have := congrArg List.reverse hr
        simpa using this
      rw [List.dropWhile_cons_of_neg (by rw [hl c _ this]; decide)]
  rw [h2, List.reverse_reverse]

theorem trimName_idem (n : Str) : trimName (trimName n) = trimName n :=
  trimName_of (fun _ _ h => trimName_head h) (fun _ _ h => trimName_last h)

/-- what a cleaned name is like: no forbidden characters, nothing to strip at the ends -/
def Portable (bad : Char → Bool) (n : Str) : Prop :=
  (∀ c ∈ n, bad c = false) ∧ (∀ c r, n = c :: r → isLeading c = false) ∧ ∀ c r, n = r ++ [c] → isBlank c = false

theorem cleanName_portable {bad : Char → Bool} (hb : bad '_' = false) (n : Str) : Portable bad (cleanName bad n) :=
  ⟨fun c hc => replaceForbidden_free hb n c (trimName_mem hc), fun _ _ h => trimName_head h,
    fun _ _ h => trimName_last h⟩

theorem Portable.fixed {bad : Char → Bool} {n : Str} (h : Portable bad n) : cleanName bad n = n := by
  unfold cleanName
  rw [replaceForbidden_id h.1, trimName_of h.2.1 h.2.2]

theorem cleanName_noslash {bad : Char → Bool} {n : Str} (h : '/' ∉ n) : '/' ∉ cleanName bad n := by
  intro hc
  obtain ⟨x, hx, he⟩ := List.mem_map.1 (trimName_mem hc)
  split at he
  · exact absurd he (by decide)
  · exact h (he ▸ hx)

theorem portable_dots (bad : Char → Bool) (hb : bad '.' = false) {n : Str} (hn : ∀ c ∈ n, c = '.') : Portable bad n := by
  refine ⟨?_, ?_, ?_⟩
  · intro c hc; rw [hn c hc]; exact hb
  · rintro c r rfl; rw [hn c (by simp)]; decide
  · rintro c r rfl; rw [hn c (by simp)]; decide

theorem mem_dotdot : ∀ c ∈ "..".toList, c = '.' := by decide
theorem mem_dot : ∀ c ∈ ".".toList, c = '.' := by decide

/-! ## CleanPath -/

theorem cleanPathNames_ok {m : Int} {ns r : List Str} (h : cleanPathNames m ns = .ok r) :
    r = (ns.map (cleanName isForbidden2)).filter (fun n => decide (n ≠ [])) ∧
      ∀ n ∈ ns, (byteLen (cleanName isForbidden2 n) : Int) ≤ m := by
  induction ns generalizing r with
  | nil => simp only [cleanPathNames] at h; cases h; simp
  | cons n ns ih =>
    rw [cleanPathNames] at h
    split at h
    · simp at h
    · rename_i hm
      obtain ⟨a, ha, h⟩ := res_bind_eq_ok.1 h
      obtain ⟨i1, i2⟩ := ih ha
      cases h
      refine ⟨?_, ?_⟩
      · rw [List.map_cons]
        by_cases hc : cleanName isForbidden2 n = []
        · rw [if_pos hc, List.filter_cons_of_neg (by simpa using hc), i1]
        · rw [if_neg hc, List.filter_cons_of_pos (by simpa using hc), i1]
      · intro x hx
        rcases List.mem_cons.1 hx with rfl | hx
        · omega
        · exact i2 x hx

theorem cleanPathNames_portable {m : Int} {ns : List Str}
    (h : ∀ n ∈ ns, Portable isForbidden2 n ∧ n ≠ [] ∧ (byteLen n : Int) ≤ m) : cleanPathNames m ns = .ok ns := by
  induction ns with
  | nil => rfl
  | cons n ns ih =>
    obtain ⟨h1, h2, h3⟩ := h n (by simp)
    rw [cleanPathNames]
    simp only [h1.fixed]
    rw [if_neg (by omega), ih (fun x hx => h x (by simp [hx])), res_bind_ok, if_neg h2]

theorem cleanPath_ok {p q : Str} {mn mp : Int} (h : cleanPath p mn mp = .ok q) :
    ∃ cs : List Str, q = joinWith '/' cs ∧ (byteLen q : Int) ≤ mp ∧
      (∀ c ∈ cs, Portable isForbidden2 c ∧ c ≠ [] ∧ '/' ∉ c ∧ (byteLen c : Int) ≤ mn) ∧
      cs = ((splitOn '/' p).map (cleanName isForbidden2)).filter (fun n => decide (n ≠ [])) ∧
      ∃ x ∈ splitOn '/' p, (byteLen (cleanName isForbidden2 x) : Int) ≤ mn := by
  unfold cleanPath at h
  obtain ⟨r, hr, h⟩ := res_bind_eq_ok.1 h
  split at h
  · simp at h
  · rename_i hm
    cases h
    obtain ⟨h1, h2⟩ := cleanPathNames_ok hr
    refine ⟨r, rfl, by omega, ?_, h1, ?_⟩
    · intro c hc
      rw [h1] at hc
      obtain ⟨hc, hne⟩ := List.mem_filter.1 hc
      obtain ⟨x, hx, rfl⟩ := List.mem_map.1 hc
      exact ⟨cleanName_portable forbidden_underscore.2 x, by simpa using hne,
        cleanName_noslash (splitOn_noSep_mem hx), h2 x hx⟩
    · obtain ⟨x, hx⟩ := List.exists_mem_of_ne_nil _ (splitOn_ne_nil '/' p)
      exact ⟨x, hx, h2 x hx⟩

/-! ## FixFilename: normal form of relative paths -/

/-- a cleaned relative path: steps up, then ordinary components -/
def RelNF (l : List Str) : Prop :=
  ∃ (k : Nat) (vs : List Str), l = List.replicate k "..".toList ++ vs ∧ ∀ v ∈ vs, ValidComp v

theorem dotdot_ne : "..".toList ≠ ([] : Str) ∧ "..".toList ≠ ".".toList := by decide

theorem replicate_cons_comm (k : Nat) (acc : List Str) :
    List.replicate k "..".toList ++ "..".toList :: acc = List.replicate (k + 1) "..".toList ++ acc := by
  rw [List.replicate_succ', List.append_assoc]; rfl

theorem cleanGo_ups (k : Nat) {acc : List Str} (ha : ∀ c ∈ acc, c = "..".toList) (cs : List Str) :
    cleanGo false acc (List.replicate k "..".toList ++ cs) =
      cleanGo false (List.replicate k "..".toList ++ acc) cs := by
  induction k generalizing acc with
  | zero => rfl
  | succ k ih =>
    rw [List.replicate_succ, List.cons_append, cleanGo, if_neg (by simp only [not_or]; exact dotdot_ne), if_pos rfl]
    have hp : popComp false acc = "..".toList :: acc := by
      cases acc with
      | nil => rfl
      | cons a acc => rw [popComp, if_pos (ha a (by simp))]
    rw [hp, ih (by
      intro c hc
      rcases List.mem_cons.1 hc with rfl | hc
      · rfl
      · exact ha c hc), replicate_cons_comm, List.replicate_succ]

theorem cleanGo_relNF {cs : List Str} (hcs : ∀ c ∈ cs, '/' ∉ c) (k : Nat) {rv : List Str}
    (hv : ∀ v ∈ rv, ValidComp v) : RelNF (cleanGo false (rv ++ List.replicate k "..".toList) cs) := by
  induction cs generalizing k rv with
  | nil =>
    rw [cleanGo]
    exact ⟨k, rv.reverse, by simp, fun v h => hv v (List.mem_reverse.1 h)⟩
  | cons c cs ih =>
    have ih := fun k rv h => ih (fun c hc => hcs c (by simp [hc])) k (rv := rv) h
    rw [cleanGo]
    split
    · exact ih k rv hv
    · rename_i h1
      split
      · cases rv with
        | nil =>
          have : popComp false ([] ++ List.replicate k "..".toList) = [] ++ List.replicate (k + 1) "..".toList := by
            cases k with
            | zero => rfl
            | succ k => rw [List.nil_append, List.replicate_succ, popComp, if_pos rfl]; rfl
          rw [this]
          exact ih _ [] (by simp)
        | cons a rv =>
          rw [List.cons_append, popComp, if_neg (hv a (by simp)).2.2.1]
          exact ih k rv (fun v h => hv v (by simp [h]))
      · rename_i h2
        rw [← List.cons_append]
        refine ih k (c :: rv) ?_
        intro v h
        rcases List.mem_cons.1 h with rfl | h
        · simp only [not_or] at h1
          exact ⟨h1.1, h1.2, h2, hcs _ (by simp)⟩
        · exact hv v h

theorem RelNF.fixed {l : List Str} (h : RelNF l) : cleanGo false [] l = l := by
  obtain ⟨k, vs, rfl, hv⟩ := h
  rw [cleanGo_ups k (by simp), cleanGo_valid hv]
  simp

theorem RelNF.comp {l : List Str} (h : RelNF l) : ∀ c ∈ l, c ≠ [] ∧ '/' ∉ c := by
  obtain ⟨k, vs, rfl, hv⟩ := h
  intro c hc
  rcases List.mem_append.1 hc with hc | hc
  · rw [(List.mem_replicate.1 hc).2]; decide
  · exact ⟨(hv c hc).1, (hv c hc).2.2.2⟩

theorem cleanGo_mem {rooted : Bool} {cs acc : List Str} {c : Str} (h : c ∈ cleanGo rooted acc cs) :
    c ∈ acc ∨ c ∈ cs ∨ c = "..".toList := by
  induction cs generalizing acc with
  | nil => rw [cleanGo, List.mem_reverse] at h; exact .inl h
  | cons x cs ih =>
    rw [cleanGo] at h
    split at h
    · rcases ih h with h | h | h
      · exact .inl h
      · exact .inr (.inl (by simp [h]))
      · exact .inr (.inr h)
    · split at h
      · rcases ih h with h | h | h
        · cases acc with
          | nil =>
            rw [popComp] at h
            split at h
            · simp at h
            · rw [List.mem_singleton] at h; exact .inr (.inr h)
          | cons a acc =>
            rw [popComp] at h
            split at h
            · rcases List.mem_cons.1 h with h | h
              · exact .inr (.inr h)
              · exact .inl h
            · exact .inl (by simp [h])
        · exact .inr (.inl (by simp [h]))
        · exact .inr (.inr h)
      · rcases ih h with h | h | h
        · rcases List.mem_cons.1 h with h | h
          · exact .inr (.inl (by simp [h]))
          · exact .inl h
        · exact .inr (.inl (by simp [h]))
        · exact .inr (.inr h)

theorem joinWith_not_rooted {c : Str} {cs : List Str} (h1 : c ≠ []) (h2 : '/' ∉ c) :
    ∀ r, joinWith '/' (c :: cs) ≠ '/' :: r := by
  intro r hr
  cases hc : c with
  | nil => exact h1 hc
  | cons x c' =>
    have hx : x ≠ '/' := by rintro rfl; exact h2 (by rw [hc]; simp)
    cases cs with
    | nil => rw [joinWith, hc] at hr; exact hx (List.cons.inj hr).1
    | cons d cs => rw [joinWith, hc] at hr; exact hx (List.cons.inj hr).1

/-- what `Join` makes of components without slashes, the first one not being empty -/
theorem pathClean_join {c : Str} {cs : List Str} (h1 : c ≠ []) (h2 : ∀ x ∈ c :: cs, '/' ∉ x) :
    pathClean (joinWith '/' (c :: cs)) =
      joinWith '/' (if cleanGo false [] (c :: cs) = [] then [".".toList] else cleanGo false [] (c :: cs)) := by
  rw [pathClean_rel (joinWith_not_rooted h1 (h2 c (by simp))), splitOn_joinWith_noSep (by simp) h2]
  have hnf : RelNF (cleanGo false [] (c :: cs)) := by
    have := cleanGo_relNF h2 0 (rv := []) (by simp)
    simpa using this
  by_cases he : cleanGo false [] (c :: cs) = []
  · rw [if_pos he, he]; rfl
  · rw [if_neg he]
    split
    · rename_i hj
      exact absurd hj (joinWith_ne_nil he (fun c hc => (hnf.comp c hc).1))
    · rfl

/-- the components of a result of `FixFilename` -/
def FixedComps (l : List Str) : Prop :=
  l ≠ [] ∧ (∀ c ∈ l, c ≠ [] ∧ '/' ∉ c ∧ Portable isForbidden c) ∧ (RelNF l ∨ l = [".".toList])

theorem FixedComps.join {l : List Str} (h : FixedComps l) : pathJoin l = joinWith '/' l := by
  obtain ⟨h1, h2, h3⟩ := h
  cases l with
  | nil => exact absurd rfl h1
  | cons c cs =>
    have hc := h2 c (by simp)
    have : pathJoin (c :: cs) = pathClean (joinWith '/' (c :: cs)) := by
      cases c with
      | nil => exact absurd rfl hc.1
      | cons x c => rfl
    rw [this, pathClean_join hc.1 (fun x hx => (h2 x hx).2.1)]
    rcases h3 with h3 | h3
    · rw [h3.fixed, if_neg (by simp)]
    · rw [h3]; rfl

theorem pathJoin_fixed {r : List Str} (hp : ∀ c ∈ r, Portable isForbidden c) (hs : ∀ c ∈ r, '/' ∉ c)
    (hne : ∃ c ∈ r, c ≠ []) : ∃ l, FixedComps l ∧ pathJoin r = joinWith '/' l := by
  induction r with
  | nil => obtain ⟨c, hc, _⟩ := hne; simp at hc
  | cons c cs ih =>
    by_cases h0 : c = []
    · subst h0
      obtain ⟨d, hd, hd0⟩ := hne
      have : d ∈ cs := by
        rcases List.mem_cons.1 hd with rfl | hd
        · exact absurd rfl hd0
        · exact hd
      exact ih (fun c hc => hp c (by simp [hc])) (fun c hc => hs c (by simp [hc])) ⟨d, this, hd0⟩
    · have hj : pathJoin (c :: cs) = pathClean (joinWith '/' (c :: cs)) := by
        cases c with
        | nil => exact absurd rfl h0
        | cons x c => rfl
      rw [hj, pathClean_join h0 hs]
      refine ⟨_, ?_, rfl⟩
      have hnf : RelNF (cleanGo false [] (c :: cs)) := by
        have := cleanGo_relNF hs 0 (rv := []) (by simp)
        simpa using this
      split
      · refine ⟨by simp, ?_, .inr rfl⟩
        intro x hx
        rw [List.mem_singleton] at hx
        subst hx
        exact ⟨by decide, by decide, portable_dots _ (by decide) mem_dot⟩
      · rename_i he
        refine ⟨he, ?_, .inl hnf⟩
        intro x hx
        refine ⟨(hnf.comp x hx).1, (hnf.comp x hx).2, ?_⟩
        rcases cleanGo_mem hx with h | h | h
        · simp at h
        · exact hp x h
        · rw [h]; exact portable_dots _ (by decide) mem_dotdot

/-- the shape of every result of `FixFilename` -/
theorem fixFilename_shape (p : Str) :
    fixFilename p = "/".toList ∨ ∃ l, FixedComps l ∧ (fixFilename p = joinWith '/' l ∨ fixFilename p = '/' :: joinWith '/' l) := by
  unfold fixFilename
  simp only
  generalize hr : (splitOn '/' p).map (cleanName isForbidden) = r
  have hp : ∀ c ∈ r, Portable isForbidden c := by
    intro c hc
    rw [← hr] at hc
    obtain ⟨x, _, rfl⟩ := List.mem_map.1 hc
    exact cleanName_portable forbidden_underscore.1 x
  have hs : ∀ c ∈ r, '/' ∉ c := by
    intro c hc
    rw [← hr] at hc
    obtain ⟨x, hx, rfl⟩ := List.mem_map.1 hc
    exact cleanName_noslash (splitOn_noSep_mem hx)
  by_cases hne : ∃ c ∈ r, c ≠ []
  · obtain ⟨l, hl, hj⟩ := pathJoin_fixed hp hs hne
    right
    refine ⟨l, hl, ?_⟩
    split
    · right; rw [hj]
    · left; rw [hj]
  · left
    have hall : ∀ c ∈ r, c = [] := by
      intro c hc; by_contra h; exact hne ⟨c, hc, h⟩
    have hj : ∀ r : List Str, (∀ c ∈ r, c = []) → pathJoin r = [] := by
      intro r
      induction r with
      | nil => intro _; rfl
      | cons c r ih =>
        intro h
        rw [h c (by simp)]
        exact ih (fun c hc => h c (by simp [hc]))
    rw [hj r hall]
    cases r with
    | nil =>
      have := congrArg List.length hr
      rw [List.length_map] at this
      exact absurd (List.length_eq_zero_iff.1 this) (splitOn_ne_nil '/' p)
    | cons c r => rw [hall c (by simp)]; rfl

theorem map_clean_fixed {l : List Str} (h : FixedComps l) : l.map (cleanName isForbidden) = l := by
  conv_rhs => rw [← List.map_id l]
  exact List.map_congr_left (fun c hc => (h.2.1 c hc).2.2.fixed)

theorem fixFilename_idem (p : Str) : fixFilename (fixFilename p) = fixFilename p := by
  rcases fixFilename_shape p with h | ⟨l, hl, h | h⟩
  · rw [h]; decide
  · rw [h]
    unfold fixFilename
    rw [splitOn_joinWith_noSep hl.1 (fun c hc => (hl.2.1 c hc).2.1), map_clean_fixed hl]
    simp only [hl.join]
    split
    · exact absurd rfl (hl.2.1 [] (by simp)).1
    · rfl
  · rw [h]
    unfold fixFilename
    have : splitOn '/' ('/' :: joinWith '/' l) = [] :: l := by
      rw [splitOn, if_pos rfl, splitOn_joinWith_noSep hl.1 (fun c hc => (hl.2.1 c hc).2.1)]
    rw [this, List.map_cons, map_clean_fixed hl]
    have h0 : cleanName isForbidden [] = [] := by decide
    simp only [h0]
    rw [← hl.join]
    rfl

/-! ## C64 -/

/-- The characters the documentation of both functions (pkg/ocfl/helper.go:51-53, 300-302) wants to be gone: control
characters and `*?:[]"<>|(){}&'!\;` -/
def docForbidden (c : Char) : Prop :=
  c.toNat < 32 ∨ c.toNat = 127 ∨ c ∈ "*?:[]\"<>|(){}&'!\\;".toList

/-- no dot component -/
def NoDots (p : Str) : Prop := ∀ c ∈ splitOn '/' p, c ≠ ".".toList ∧ c ≠ "..".toList

/-- C64 in full: without the documented forbidden characters, idempotent, no dot components -/
def C64_full : Prop :=
  (∀ p, (∀ c ∈ fixFilename p, ¬ docForbidden c) ∧ fixFilename (fixFilename p) = fixFilename p ∧ NoDots (fixFilename p)) ∧
  ∀ p q mn mp, cleanPath p mn mp = .ok q →
    (∀ c ∈ q, ¬ docForbidden c) ∧ cleanPath q mn mp = .ok q ∧ NoDots q

theorem docForbidden_of {c : Char} (h : isForbidden c = false) (hb : c ≠ '\\') : ¬ docForbidden c := by
  unfold isForbidden at h
  simp only [Bool.or_eq_false_iff, decide_eq_false_iff_not] at h
  rintro (hd | hd | hd)
  · exact h.1.1 hd
  · exact h.1.2 hd
  · have h3 := h.2
    rw [← Bool.not_eq_true, List.contains_iff_mem] at h3
    have hsub : ∀ x ∈ "*?:[]\"<>|(){}&'!\\;".toList, x = '\\' ∨ x ∈ "*?:[]\"<>|(){}&'!;".toList := by decide
    rcases hsub c hd with rfl | h4
    · exact hb rfl
    · exact h3 h4

theorem joinWith_chars {P : Char → Prop} (hs : P '/') {cs : List Str} (h : ∀ c ∈ cs, ∀ x ∈ c, P x) :
    ∀ x ∈ joinWith '/' cs, P x := by
  induction cs with
  | nil => simp [joinWith]
  | cons c cs ih =>
    cases cs with
    | nil => exact h c (by simp)
    | cons d cs =>
      rw [joinWith]
      intro x hx
      rcases List.mem_append.1 hx with hx | hx
      · exact h c (by simp) x hx
      · rcases List.mem_cons.1 hx with rfl | hx
        · exact hs
        · exact ih (fun c hc => h c (by simp [hc])) x hx

theorem joinWith_back {cs : List Str} {P : Char → Prop} (h : ∀ x ∈ joinWith '/' cs, P x) :
    ∀ c ∈ cs, ∀ x ∈ c, P x := by
  induction cs with
  | nil => simp
  | cons c cs ih =>
    cases cs with
    | nil => intro d hd x hx; rw [List.mem_singleton] at hd; subst hd; exact h x hx
    | cons d cs =>
      rw [joinWith] at h
      intro e he x hx
      rcases List.mem_cons.1 he with rfl | he
      · exact h x (by simp [hx])
      · exact ih (fun y hy => h y (by simp [hy])) e he x hx

/-- C64 for `FixFilename`, for all names: idempotent, free of the forbidden characters except the backslash, every
component without blanks, dashes or tildes in front and blanks at the end.  Missing: the backslash is not replaced;
`.` and `..` may be left or even appear. -/
theorem C64_fix_filename_partial (p : Str) :
    fixFilename (fixFilename p) = fixFilename p ∧ (∀ c ∈ fixFilename p, c ≠ '\\' → ¬ docForbidden c) ∧
    ∀ n ∈ splitOn '/' (fixFilename p), (∀ c r, n = c :: r → c ≠ ' ' ∧ c ≠ '-' ∧ c ≠ '~') ∧ ∀ c r, n = r ++ [c] → c ≠ ' ' := by
  have hport : ∀ n, Portable isForbidden n →
      (∀ c r, n = c :: r → c ≠ ' ' ∧ c ≠ '-' ∧ c ≠ '~') ∧ ∀ c r, n = r ++ [c] → c ≠ ' ' := by
    intro n hn
    constructor
    · intro c r h
      have := hn.2.1 c r h
      refine ⟨?_, ?_, ?_⟩ <;> (rintro rfl; exact absurd this (by decide))
    · intro c r h
      have := hn.2.2 c r h
      rintro rfl; exact absurd this (by decide)
  have hslash : isForbidden '/' = false := by decide
  have hempty : Portable isForbidden [] := portable_dots _ (by decide) (by simp)
  refine ⟨fixFilename_idem p, ?_, ?_⟩
  · have : ∀ c ∈ fixFilename p, isForbidden c = false := by
      rcases fixFilename_shape p with h | ⟨l, hl, h | h⟩
      · rw [h]; decide
      · rw [h]
        exact joinWith_chars hslash (fun c hc => (hl.2.1 c hc).2.2.1)
      · rw [h]
        intro c hc
        rcases List.mem_cons.1 hc with rfl | hc
        · exact hslash
        · exact joinWith_chars hslash (fun c hc => (hl.2.1 c hc).2.2.1) c hc
    intro c hc hb
    exact docForbidden_of (this c hc) hb
  · intro n hn
    apply hport
    rcases fixFilename_shape p with h | ⟨l, hl, h | h⟩
    · rw [h] at hn
      have : n = [] := by
        have h2 : splitOn '/' "/".toList = [[], []] := by decide
        rw [h2] at hn; simpa using hn
      rw [this]; exact hempty
    · rw [h, splitOn_joinWith_noSep hl.1 (fun c hc => (hl.2.1 c hc).2.1)] at hn
      exact (hl.2.1 n hn).2.2
    · rw [h, splitOn, if_pos rfl, splitOn_joinWith_noSep hl.1 (fun c hc => (hl.2.1 c hc).2.1)] at hn
      rcases List.mem_cons.1 hn with rfl | hn
      · exact hempty
      · exact (hl.2.1 n hn).2.2

example : fixFilename " a*b /~c?".toList = "a_b/c_".toList := by decide

/-- C64 for `CleanPath`, for all names and limits: idempotent, free of the forbidden characters except the backslash
(and of `#`, `@`), no empty component, not absolute, within the limits.  Missing: the backslash; dot components. -/
theorem C64_clean_path_partial {p q : Str} {mn mp : Int} (h : cleanPath p mn mp = .ok q) :
    cleanPath q mn mp = .ok q ∧ (∀ c ∈ q, c ≠ '\\' → ¬ docForbidden c) ∧ '#' ∉ q ∧ '@' ∉ q ∧
    (byteLen q : Int) ≤ mp ∧ (∀ r, q ≠ '/' :: r) ∧
    (q ≠ [] → ∀ n ∈ splitOn '/' q, n ≠ [] ∧ (byteLen n : Int) ≤ mn) := by
  obtain ⟨cs, hq, hlen, hcs, -, x, -, hx⟩ := cleanPath_ok h
  have h0 : 0 ≤ mn := le_trans (Int.natCast_nonneg _) hx
  have hbad : ∀ c ∈ q, isForbidden2 c = false := by
    rw [hq]; exact joinWith_chars (by decide) (fun c hc => (hcs c hc).1.1)
  have hsplit : cs ≠ [] → splitOn '/' q = cs := by
    intro hne; rw [hq]; exact splitOn_joinWith_noSep hne (fun c hc => (hcs c hc).2.2.1)
  refine ⟨?_, ?_, ?_, ?_, hlen, ?_, ?_⟩
  · by_cases hne : cs = []
    · subst hne
      rw [hq] at hlen ⊢
      unfold cleanPath
      have : cleanPathNames mn (splitOn '/' (joinWith '/' [])) = .ok [] := by
        have h1 : splitOn '/' (joinWith '/' []) = [[]] := rfl
        rw [h1, cleanPathNames]
        have h2 : cleanName isForbidden2 [] = [] := by decide
        simp only [h2]
        have h3 : byteLen ([] : Str) = 0 := rfl
        rw [h3, if_neg (by simpa using h0)]
        rfl
      rw [this, res_bind_ok, if_neg (by omega)]
    · unfold cleanPath
      rw [hsplit hne, cleanPathNames_portable (fun n hn => ⟨(hcs n hn).1, (hcs n hn).2.1, (hcs n hn).2.2.2⟩), res_bind_ok,
        ← hq, if_neg (by omega)]
  · intro c hc hb
    have := hbad c hc
    unfold isForbidden2 at this
    simp only [Bool.or_eq_false_iff] at this
    exact docForbidden_of this.1.1 hb
  · intro hc; exact absurd (hbad _ hc) (by decide)
  · intro hc; exact absurd (hbad _ hc) (by decide)
  · intro r hr
    cases cs with
    | nil => rw [hq] at hr; simp [joinWith] at hr
    | cons c cs =>
      rw [hq] at hr
      exact joinWith_not_rooted (hcs c (by simp)).2.1 (hcs c (by simp)).2.2.1 r hr
  · intro hne n hn
    have hcne : cs ≠ [] := by rintro rfl; exact hne (by rw [hq]; rfl)
    rw [hsplit hcne] at hn
    exact ⟨(hcs n hn).2.1, (hcs n hn).2.2.2⟩

example : cleanPath "/-x//b@.txt ".toList 255 4096 = .ok "x/b_.txt".toList := by decide

/-- C64 is violated: the backslash stays. -/
theorem C64_full_fails : ¬ C64_full := by
  intro h
  exact (h.1 "a\\b".toList).1 '\\' (by decide) (.inr (.inr (by decide)))

/-- C64 is violated: both functions make `..` out of a harmless name. -/
theorem C64_full_fails_dots :
    ¬ NoDots (fixFilename "-..".toList) ∧ cleanPath "a/-../-../b".toList 255 4096 = .ok "a/../../b".toList := by
  refine ⟨?_, by decide⟩
  intro h
  exact (h "..".toList (by decide)).2 rfl

end Gocfl
