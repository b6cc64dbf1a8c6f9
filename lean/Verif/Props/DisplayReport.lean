import Verif.Model.DisplayReport
import Verif.Props.Display

/-!
# C129: the tree in the report of the web display
-/

namespace Gocfl

/-- Reading the lines from top to bottom: a line with indent `l` is below the line before it with indent `l - 1`. -/
def readBack : List Str → List FlatEdge → List (List Str)
  | _, [] => []
  | st, r :: rs => (st.take (r.left - 1) ++ [r.name]) :: readBack (st.take (r.left - 1) ++ [r.name]) rs

/-- The path is shown for a file: a folder it is in, or, in the full report, the file. -/
def ShownFor (full : Bool) (q : Str) (path : List Str) : Prop :=
  path ≠ [] ∧ (∀ c ∈ path, '/' ∉ c) ∧
    ((∃ rest, q = joinWith '/' path ++ '/' :: rest) ∨ (full = true ∧ q = joinWith '/' path))

/-- The lines show the tree of the folders of the files, each once, and leave the same width for all. -/
structure ShowsTree (full : Bool) (lines : List FlatEdge) (isFile : Str → Prop) : Prop where
  nodup : (readBack [] lines).Nodup
  all : ∀ path, path ∈ readBack [] lines ↔ ∃ q, isFile q ∧ ShownFor full q path
  width : ∃ m : Nat, ∀ r ∈ lines, 1 ≤ r.left ∧ 0 ≤ r.right ∧ (r.left : Int) + r.right = m
  tight : lines ≠ [] → ∃ r ∈ lines, r.right = 0

/-- **C129, in full**: for all objects. -/
def C129_full : Prop :=
  ∀ (V : Type) (inv : Inv) (n : Nat) (exts : List (Str × Res (AMap Str V))) (m : ObjMeta V) (full : Bool) (names : List Str),
    GoodInv inv n → objMetadata inv exts = .ok m → names.Perm (reportNames m) →
      ShowsTree full (reportLines full names) (fun q => ∃ v d, HasFile inv v q d)

/-! ## The tree -/

/-- the paths of all edges, parents first -/
def RForest.paths : List Str → RForest → List (List Str)
  | _, .nil => []
  | pre, .cons n _ ch nx => (pre ++ [n]) :: (RForest.paths (pre ++ [n]) ch ++ RForest.paths pre nx)

/-- the names of the children -/
def RForest.tops : RForest → List Str
  | .nil => []
  | .cons n _ _ nx => n :: nx.tops

/-- the indents are the depths, below an edge with indent `i` -/
def RForest.Indented : Nat → RForest → Prop
  | _, .nil => True
  | i, .cons _ k ch nx => k = i + 1 ∧ RForest.Indented (i + 1) ch ∧ RForest.Indented i nx

/-- the children of an edge have different names -/
def RForest.Distinct : RForest → Prop
  | .nil => True
  | .cons n _ ch nx => n ∉ nx.tops ∧ ch.Distinct ∧ nx.Distinct

/-- no name is blank -/
def RForest.NoBlank : RForest → Prop
  | .nil => True
  | .cons n _ ch nx => trimSpace n ≠ [] ∧ ch.NoBlank ∧ nx.NoBlank

/-- a new path and those before -/
def IsNew (pre parts path : List Str) : Prop := ∃ r, r ≠ [] ∧ r <+: parts ∧ path = pre ++ r

theorem isNew_cons {pre ps path : List Str} {p : Str} :
    IsNew pre (p :: ps) path ↔ path = pre ++ [p] ∨ IsNew (pre ++ [p]) ps path := by
  constructor
  · rintro ⟨r, h1, h2, rfl⟩
    cases r with
    | nil => exact absurd rfl h1
    | cons x r =>
      obtain ⟨rfl, h3⟩ := List.cons_prefix_cons.1 h2
      cases r with
      | nil => exact Or.inl rfl
      | cons y r => exact Or.inr ⟨y :: r, by simp, h3, by simp⟩
  · rintro (rfl | ⟨r, h1, h2, rfl⟩)
    · exact ⟨[p], by simp, List.cons_prefix_cons.2 ⟨rfl, List.nil_prefix⟩, rfl⟩
    · exact ⟨p :: r, by simp, List.cons_prefix_cons.2 ⟨rfl, h2⟩, by simp⟩

theorem isNew_nil {pre path : List Str} : ¬ IsNew pre [] path := by
  rintro ⟨r, h1, h2, _⟩
  exact h1 (List.prefix_nil.1 h2)

theorem mem_chain (parts : List Str) (pre : List Str) (i : Nat) (path : List Str) :
    path ∈ (chainFrom i parts).paths pre ↔ IsNew pre parts path := by
  induction parts generalizing pre i with
  | nil => simp [chainFrom, RForest.paths, isNew_nil]
  | cons p ps ih =>
    rw [chainFrom, RForest.paths, isNew_cons, List.mem_cons, List.mem_append, ih]
    simp [RForest.paths]

theorem mem_add (f : RForest) (pre : List Str) (i : Nat) (parts path : List Str) :
    path ∈ (addToTree f i parts).paths pre ↔ path ∈ f.paths pre ∨ IsNew pre parts path := by
  induction f generalizing pre i parts with
  | nil => simp only [addToTree, mem_chain, RForest.paths, List.not_mem_nil, false_or]
  | cons n k ch nx ih1 ih2 =>
    cases parts with
    | nil => simp only [addToTree, isNew_nil, or_false]
    | cons p ps =>
      rw [addToTree]
      split
      · rename_i h
        subst h
        rw [RForest.paths, RForest.paths, isNew_cons]
        simp only [List.mem_cons, List.mem_append, ih1]
        tauto
      · rw [RForest.paths, RForest.paths]
        simp only [List.mem_cons, List.mem_append, ih2]
        tauto

theorem tops_add (f : RForest) (i : Nat) (parts : List Str) (x : Str) :
    x ∈ (addToTree f i parts).tops ↔ x ∈ f.tops ∨ parts.head? = some x := by
  induction f generalizing i parts with
  | nil =>
    cases parts with
    | nil => simp [addToTree, chainFrom, RForest.tops]
    | cons p ps => simp [addToTree, chainFrom, RForest.tops, eq_comm]
  | cons n k ch nx _ ih2 =>
    cases parts with
    | nil => simp [addToTree]
    | cons p ps =>
      rw [addToTree]
      split
      · rename_i h
        subst h
        simp only [RForest.tops, List.mem_cons, List.head?_cons, Option.some.injEq]
        constructor
        · exact Or.inl
        · rintro (h | h)
          · exact h
          · exact Or.inl h.symm
      · simp only [RForest.tops, List.mem_cons, ih2]
        tauto

theorem chain_distinct (parts : List Str) (i : Nat) : (chainFrom i parts).Distinct := by
  induction parts generalizing i with
  | nil => trivial
  | cons p ps ih => exact ⟨by simp [RForest.tops], ih _, trivial⟩

theorem add_distinct (f : RForest) (i : Nat) (parts : List Str) (h : f.Distinct) : (addToTree f i parts).Distinct := by
  induction f generalizing i parts with
  | nil => exact chain_distinct _ _
  | cons n k ch nx ih1 ih2 =>
    cases parts with
    | nil => exact h
    | cons p ps =>
      rw [addToTree]
      split
      · exact ⟨h.1, ih1 _ _ h.2.1, h.2.2⟩
      · rename_i hne
        refine ⟨?_, h.2.1, ih2 _ _ h.2.2⟩
        rw [tops_add]
        rintro (h' | h')
        · exact h.1 h'
        · simp only [List.head?_cons, Option.some.injEq] at h'
          exact hne h'.symm

theorem chain_indented (parts : List Str) (i : Nat) : (chainFrom i parts).Indented i := by
  induction parts generalizing i with
  | nil => trivial
  | cons p ps ih => exact ⟨rfl, ih _, trivial⟩

theorem add_indented (f : RForest) (i : Nat) (parts : List Str) (h : f.Indented i) : (addToTree f i parts).Indented i := by
  induction f generalizing i parts with
  | nil => exact chain_indented _ _
  | cons n k ch nx ih1 ih2 =>
    cases parts with
    | nil => exact h
    | cons p ps =>
      obtain ⟨rfl, h1, h2⟩ := h
      rw [addToTree]
      split
      · exact ⟨rfl, ih1 _ _ h1, h2⟩
      · exact ⟨rfl, h1, ih2 _ _ h2⟩

theorem chain_noBlank (parts : List Str) (i : Nat) (hp : ∀ c ∈ parts, trimSpace c ≠ []) : (chainFrom i parts).NoBlank := by
  induction parts generalizing i with
  | nil => trivial
  | cons p ps ih => exact ⟨hp p (by simp), ih _ (fun c hc => hp c (by simp [hc])), trivial⟩

theorem add_noBlank (f : RForest) (i : Nat) (parts : List Str) (hp : ∀ c ∈ parts, trimSpace c ≠ []) (h : f.NoBlank) :
    (addToTree f i parts).NoBlank := by
  induction f generalizing i parts with
  | nil => exact chain_noBlank _ _ hp
  | cons n k ch nx ih1 ih2 =>
    cases parts with
    | nil => exact h
    | cons p ps =>
      rw [addToTree]
      split
      · exact ⟨h.1, ih1 _ _ (fun c hc => hp c (by simp [hc])) h.2.1, h.2.2⟩
      · exact ⟨h.1, h.2.1, ih2 _ _ hp h.2.2⟩

theorem paths_form {f : RForest} {pre path : List Str} (h : path ∈ f.paths pre) : ∃ n ∈ f.tops, ∃ r, path = pre ++ n :: r := by
  induction f generalizing pre with
  | nil => cases h
  | cons n k ch nx ih1 ih2 =>
    simp only [RForest.paths, List.mem_cons, List.mem_append] at h
    rcases h with rfl | h | h
    · exact ⟨n, by simp [RForest.tops], [], rfl⟩
    · obtain ⟨x, _, r, rfl⟩ := ih1 h
      exact ⟨n, by simp [RForest.tops], x :: r, by simp⟩
    · obtain ⟨x, hx, r, rfl⟩ := ih2 h
      exact ⟨x, by simp [RForest.tops, hx], r, rfl⟩

theorem paths_nodup {f : RForest} {pre : List Str} (h : f.Distinct) : (f.paths pre).Nodup := by
  induction f generalizing pre with
  | nil => simp [RForest.paths]
  | cons n k ch nx ih1 ih2 =>
    obtain ⟨h1, h2, h3⟩ := h
    rw [RForest.paths, List.nodup_cons, List.nodup_append]
    refine ⟨?_, ih1 h2, ih2 h3, ?_⟩
    · rw [List.mem_append]
      rintro (hm | hm)
      · obtain ⟨x, _, r, hx⟩ := paths_form hm
        have := congrArg List.length hx
        simp at this
      · obtain ⟨x, hx, r, he⟩ := paths_form hm
        have he := List.append_cancel_left he
        simp only [List.cons.injEq] at he
        rw [he.1] at h1
        exact h1 hx
    · rintro a ha b hb rfl
      obtain ⟨x, _, r, rfl⟩ := paths_form ha
      obtain ⟨y, hy, r', he⟩ := paths_form hb
      rw [List.append_assoc] at he
      have he := List.append_cancel_left he
      simp only [List.cons_append, List.cons.injEq] at he
      rw [he.1] at h1
      exact h1 hy

/-- reading the lines back gives the paths -/
theorem readBack_flatten (m : Nat) {f : RForest} {pre st : List Str} (hi : f.Indented pre.length) (hb : f.NoBlank)
    (hst : st.take pre.length = pre) : ∃ st' : List Str, st'.take pre.length = pre ∧
      ∀ rest, readBack st (flattenTree m f ++ rest) = f.paths pre ++ readBack st' rest := by
  induction f generalizing pre st with
  | nil => exact ⟨st, hst, fun rest => rfl⟩
  | cons n k ch nx ih1 ih2 =>
    obtain ⟨rfl, h1, h2⟩ := hi
    obtain ⟨b0, b1, b2⟩ := hb
    have hl : (pre ++ [n]).length = pre.length + 1 := by simp
    obtain ⟨st1, s1, r1⟩ := ih1 (pre := pre ++ [n]) (st := pre ++ [n]) (by rw [hl]; exact h1) b1 (by simp)
    have s1' : st1.take pre.length = pre := by
      have := congrArg (List.take pre.length) s1
      rw [List.take_take, hl] at this
      simpa using this
    obtain ⟨st2, s2, r2⟩ := ih2 (pre := pre) (st := st1) h2 b2 s1'
    refine ⟨st2, s2, fun rest => ?_⟩
    rw [flattenTree, if_pos b0, RForest.paths]
    simp only [List.append_assoc, List.cons_append, List.nil_append]
    rw [readBack]
    simp only [Nat.add_sub_cancel, hst]
    rw [r1, r2]

/-! ## The depth -/

/-- no indent is greater than `m` -/
def RForest.AtMost (m : Nat) : RForest → Prop
  | .nil => True
  | .cons _ k ch nx => k ≤ m ∧ RForest.AtMost m ch ∧ RForest.AtMost m nx

theorem RForest.AtMost.mono {m m' : Nat} (h : m ≤ m') {f : RForest} (hf : f.AtMost m) : f.AtMost m' := by
  induction f with
  | nil => trivial
  | cons n k ch nx ih1 ih2 => exact ⟨le_trans hf.1 h, ih1 hf.2.1, ih2 hf.2.2⟩

theorem chainDepth_eq (parts : List Str) (i m : Nat) (h : i ≤ m) : chainDepth i parts m = max m (i + parts.length) := by
  induction parts generalizing i m with
  | nil => simp [chainDepth, h]
  | cons p ps ih =>
    rw [chainDepth]
    split
    · rw [ih _ _ (le_refl _)]
      simp only [List.length_cons]
      omega
    · rw [ih _ _ (by omega)]
      simp only [List.length_cons]
      omega

theorem depthAfter_eq (f : RForest) (i : Nat) (parts : List Str) (m : Nat) (h : i ≤ m) (hi : f.Indented i) (hm : f.AtMost m) :
    depthAfter f i parts m = max m (i + parts.length) := by
  induction f generalizing i parts with
  | nil => exact chainDepth_eq _ _ _ h
  | cons n k ch nx ih1 ih2 =>
    obtain ⟨rfl, h1, h2⟩ := hi
    obtain ⟨m0, m1, m2⟩ := hm
    cases parts with
    | nil => simp [depthAfter, h]
    | cons p ps =>
      rw [depthAfter]
      split
      · rw [ih1 _ _ m0 h1 m1]
        simp only [List.length_cons]
        omega
      · exact ih2 _ _ h h2 m2

theorem chain_atMost (parts : List Str) (i m : Nat) (h : i + parts.length ≤ m) : (chainFrom i parts).AtMost m := by
  induction parts generalizing i with
  | nil => trivial
  | cons p ps ih =>
    simp only [List.length_cons] at h
    exact ⟨by omega, ih _ (by omega), trivial⟩

theorem add_atMost (f : RForest) (i : Nat) (parts : List Str) (m : Nat) (hi : f.Indented i) (h : f.AtMost m)
    (hl : i + parts.length ≤ m) : (addToTree f i parts).AtMost m := by
  induction f generalizing i parts with
  | nil => exact chain_atMost _ _ _ hl
  | cons n k ch nx ih1 ih2 =>
    obtain ⟨rfl, h1, h2⟩ := hi
    cases parts with
    | nil => exact h
    | cons p ps =>
      rw [addToTree]
      simp only [List.length_cons] at hl
      split
      · exact ⟨h.1, ih1 _ _ h1 h.2.1 (by omega), h.2.2⟩
      · exact ⟨h.1, h.2.1, ih2 _ _ h2 h.2.2 (by simp only [List.length_cons]; omega)⟩

theorem flatten_mem {m : Nat} {f : RForest} {i : Nat} (hi : f.Indented i) (hm : f.AtMost m) {r : FlatEdge}
    (h : r ∈ flattenTree m f) : i + 1 ≤ r.left ∧ r.left ≤ m ∧ r.right = (m : Int) - r.left := by
  induction f generalizing i with
  | nil => cases h
  | cons n k ch nx ih1 ih2 =>
    obtain ⟨rfl, h1, h2⟩ := hi
    rw [flattenTree, List.mem_append, List.mem_append] at h
    rcases h with (h | h) | h
    · split at h
      · rw [List.mem_singleton] at h
        subst h
        exact ⟨le_refl _, hm.1, rfl⟩
      · cases h
    · have := ih1 h1 hm.2.1 h
      exact ⟨by omega, this.2⟩
    · exact ih2 h2 hm.2.2 h

/-- every path has its line -/
theorem flatten_line (m : Nat) {f : RForest} {pre : List Str} (hi : f.Indented pre.length) (hb : f.NoBlank) {path : List Str}
    (h : path ∈ f.paths pre) : ∃ r ∈ flattenTree m f, r.left = path.length := by
  induction f generalizing pre with
  | nil => cases h
  | cons n k ch nx ih1 ih2 =>
    obtain ⟨rfl, h1, h2⟩ := hi
    simp only [RForest.paths, List.mem_cons, List.mem_append] at h
    rw [flattenTree, if_pos hb.1]
    rcases h with rfl | h | h
    · exact ⟨_, by simp only [List.mem_append, List.mem_singleton]; exact Or.inl (Or.inl rfl), by simp⟩
    · obtain ⟨r, h3, h4⟩ := ih1 (pre := pre ++ [n]) (by simpa using h1) hb.2.1 h
      exact ⟨r, by simp only [List.mem_append]; exact Or.inl (Or.inr h3), h4⟩
    · obtain ⟨r, h3, h4⟩ := ih2 h2 hb.2.2 h
      exact ⟨r, by simp only [List.mem_append]; exact Or.inr h3, h4⟩

/-! ## All names -/

/-- what is true of the tree built so far -/
structure TreeOk (full : Bool) (seen : Str → Prop) (t : RForest × Nat) : Prop where
  indented : t.1.Indented 0
  distinct : t.1.Distinct
  noBlank : t.1.NoBlank
  atMost : t.1.AtMost t.2
  reached : t.2 = 0 ∨ ∃ path ∈ t.1.paths [], path.length = t.2
  mem : ∀ path, path ∈ t.1.paths [] ↔ ∃ q, seen q ∧ IsNew [] (nameParts full q) path

theorem treeOk_add {full : Bool} {seen : Str → Prop} {t : RForest × Nat} (h : TreeOk full seen t) (q : Str)
    (hq : ∀ c ∈ nameParts full q, trimSpace c ≠ []) :
    TreeOk full (fun x => x = q ∨ seen x) (addToTree t.1 0 (nameParts full q), depthAfter t.1 0 (nameParts full q) t.2) := by
  have hd := depthAfter_eq t.1 0 (nameParts full q) t.2 (Nat.zero_le _) h.indented h.atMost
  have hmem : ∀ path, path ∈ (addToTree t.1 0 (nameParts full q)).paths [] ↔
      ∃ x, (x = q ∨ seen x) ∧ IsNew [] (nameParts full x) path := by
    intro path
    rw [mem_add, h.mem]
    constructor
    · rintro (⟨x, h1, h2⟩ | h1)
      · exact ⟨x, Or.inr h1, h2⟩
      · exact ⟨q, Or.inl rfl, h1⟩
    · rintro ⟨x, rfl | h1, h2⟩
      · exact Or.inr h2
      · exact Or.inl ⟨x, h1, h2⟩
  refine ⟨add_indented _ _ _ h.indented, add_distinct _ _ _ h.distinct, add_noBlank _ _ _ hq h.noBlank, ?_, ?_, hmem⟩
  · simp only [hd]
    exact add_atMost _ _ _ _ h.indented (h.atMost.mono (by omega)) (by omega)
  · simp only [hd]
    by_cases hle : (nameParts full q).length ≤ t.2
    · rw [Nat.zero_add, Nat.max_eq_left hle]
      rcases h.reached with h0 | ⟨path, h1, h2⟩
      · exact Or.inl h0
      · exact Or.inr ⟨path, (mem_add _ _ _ _ _).2 (Or.inl h1), h2⟩
    · rw [Nat.zero_add, Nat.max_eq_right (by omega)]
      refine Or.inr ⟨nameParts full q, (mem_add _ _ _ _ _).2 (Or.inr ⟨_, ?_, List.prefix_refl _, rfl⟩), rfl⟩
      intro h0
      rw [h0] at hle
      simp at hle

theorem reportTree_ok {full : Bool} (names : List Str) {seen : Str → Prop} {t : RForest × Nat} (h : TreeOk full seen t)
    (hb : ∀ q ∈ names, ∀ c ∈ nameParts full q, trimSpace c ≠ []) :
    TreeOk full (fun x => x ∈ names ∨ seen x) (reportTree full names t) := by
  induction names generalizing seen t with
  | nil => simpa [reportTree] using h
  | cons q qs ih =>
    have := ih (treeOk_add h q (hb q (by simp))) (fun x hx => hb x (by simp [hx]))
    rw [reportTree]
    have e : (fun x => x ∈ q :: qs ∨ seen x) = (fun x => x ∈ qs ∨ x = q ∨ seen x) := by
      funext x
      simp only [List.mem_cons, eq_iff_iff]
      tauto
    rw [e]
    exact this

theorem prefix_splitOn {q : Str} {r : List Str} (hr : r ≠ []) :
    r <+: splitOn '/' q ↔ (∀ c ∈ r, '/' ∉ c) ∧ ((∃ rest, q = joinWith '/' r ++ '/' :: rest) ∨ q = joinWith '/' r) := by
  constructor
  · rintro ⟨t, ht⟩
    have hj : joinWith '/' (r ++ t) = q := by rw [ht, joinWith_splitOn]
    refine ⟨fun c hc => splitOn_noSep_mem (by rw [← ht]; simp [hc]), ?_⟩
    cases t with
    | nil => rw [List.append_nil] at hj; exact Or.inr hj.symm
    | cons x t =>
      rw [joinWith_append hr (by simp)] at hj
      exact Or.inl ⟨_, hj.symm⟩
  · rintro ⟨h1, ⟨rest, rfl⟩ | rfl⟩
    · rw [splitOn_append, splitOn_joinWith_noSep hr h1]
      exact ⟨_, rfl⟩
    · rw [splitOn_joinWith_noSep hr h1]

theorem isNew_shown {full : Bool} {q : Str} {path : List Str} : IsNew [] (nameParts full q) path ↔ ShownFor full q path := by
  unfold IsNew ShownFor nameParts
  simp only [List.nil_append]
  constructor
  · rintro ⟨r, hr, hp, rfl⟩
    refine ⟨hr, ?_⟩
    cases full with
    | true =>
      simp only [if_pos] at hp
      obtain ⟨h1, h2⟩ := (prefix_splitOn hr).1 hp
      exact ⟨h1, h2.imp id (fun h => ⟨rfl, h⟩)⟩
    | false =>
      simp only [Bool.false_eq_true, if_false] at hp
      have hp' := hp.trans (List.dropLast_prefix _)
      obtain ⟨h1, h2⟩ := (prefix_splitOn hr).1 hp'
      refine ⟨h1, Or.inl ?_⟩
      rcases h2 with h2 | rfl
      · exact h2
      · rw [splitOn_joinWith_noSep hr h1] at hp
        have := hp.length_le
        rw [List.length_dropLast] at this
        have : 0 < path.length := List.length_pos_of_ne_nil hr
        omega
  · rintro ⟨hr, h1, h2⟩
    refine ⟨path, hr, ?_, rfl⟩
    cases full with
    | true =>
      simp only [if_pos]
      exact (prefix_splitOn hr).2 ⟨h1, h2.imp id (fun h => h.2)⟩
    | false =>
      simp only [Bool.false_eq_true, if_false, false_and, or_false] at h2 ⊢
      obtain ⟨rest, rfl⟩ := h2
      rw [splitOn_append, splitOn_joinWith_noSep hr h1, List.dropLast_append_of_ne_nil (splitOn_ne_nil _ _)]
      exact ⟨_, rfl⟩

/-- the lines of the report, for all orders of the names -/
theorem reportLines_shows (full : Bool) (names : List Str) (hb : ∀ q ∈ names, ∀ c ∈ nameParts full q, trimSpace c ≠ []) :
    ShowsTree full (reportLines full names) (fun q => q ∈ names) := by
  have h0 : TreeOk full (fun _ => False) (.nil, 0) :=
    ⟨trivial, trivial, trivial, trivial, Or.inl rfl, fun path => by simp [RForest.paths]⟩
  have h := reportTree_ok names h0 hb
  obtain ⟨st, _, hr⟩ := readBack_flatten (reportTree full names (.nil, 0)).2 (pre := []) (st := []) h.indented h.noBlank rfl
  have hr := hr []
  rw [List.append_nil] at hr
  have hr : readBack [] (reportLines full names) = (reportTree full names (.nil, 0)).1.paths [] := by
    unfold reportLines
    rw [hr]
    simp [readBack]
  refine ⟨by rw [hr]; exact paths_nodup h.distinct, ?_, ⟨(reportTree full names (.nil, 0)).2, ?_⟩, ?_⟩
  · intro path
    rw [hr, h.mem]
    simp only [or_false, isNew_shown]
  · intro r hmem
    obtain ⟨h1, h2, h3⟩ := flatten_mem h.indented h.atMost hmem
    omega
  · intro hne
    rcases h.reached with hz | ⟨path, h1, h2⟩
    · obtain ⟨r, hmem⟩ := List.exists_mem_of_ne_nil _ hne
      obtain ⟨h1, h2, h3⟩ := flatten_mem h.indented h.atMost hmem
      omega
    · obtain ⟨r, h3, h4⟩ := flatten_line (reportTree full names (.nil, 0)).2 (pre := []) h.indented h.noBlank h1
      obtain ⟨_, _, h6⟩ := flatten_mem h.indented h.atMost h3
      exact ⟨r, h3, by rw [h6, h4, h2]; omega⟩

/-- the names in the report are those of the files of all versions -/
theorem mem_reportNames {V : Type} {inv : Inv} {n : Nat} (hg : GoodInv inv n) {exts : List (Str × Res (AMap Str V))}
    {m : ObjMeta V} (h : objMetadata inv exts = .ok m) (q : Str) : q ∈ reportNames m ↔ ∃ v d, HasFile inv v q d := by
  have hx := hg.exact h
  have hn := metaFiles_nodup hg.man h
  unfold reportNames
  simp only [List.mem_flatMap]
  constructor
  · rintro ⟨⟨d, f⟩, h1, ⟨v, ps⟩, h2, h3⟩
    refine ⟨v, d, (hx.names _ _ _).2 ⟨f, ps, mget_of_mem hn h1, ?_, h3⟩⟩
    obtain ⟨em, _, rfl⟩ := objMetadata_ok h
    obtain ⟨e, he, hf⟩ := List.mem_filterMap.1 h1
    split at hf
    · cases hf
    · cases hf
      refine mget_of_mem ?_ h2
      have : ∀ (l : AMap Str Version) (d : Str), (mkeys l).Nodup →
          (mkeys (l.filterMap (fun e => (mget e.2.state d).map (fun names => (e.1, names))))).Nodup := by
        intro l d hl
        refine List.Nodup.sublist ?_ hl
        induction l with
        | nil => simp [mkeys]
        | cons x l ih =>
          have ih := ih (by
            have : mkeys (x :: l) = x.1 :: mkeys l := rfl
            rw [this] at hl
            exact (List.nodup_cons.1 hl).2)
          rw [List.filterMap_cons]
          cases mget x.2.state d with
          | none => exact ih.cons _
          | some ps => exact ih.cons_cons _
      exact this _ _ hg.wf.1.nodup
  · rintro ⟨v, d, hf⟩
    obtain ⟨f, ps, h1, h2, h3⟩ := (hx.names _ _ _).1 hf
    exact ⟨(d, f), mem_of_mget h1, (v, ps), mem_of_mget h2, h3⟩

/-- **C129.**  For objects without blank names of folders and files. -/
theorem C129_tree_partial {V : Type} {inv : Inv} {n : Nat} (hg : GoodInv inv n) {exts : List (Str × Res (AMap Str V))}
    {m : ObjMeta V} (h : objMetadata inv exts = .ok m) (full : Bool) {names : List Str} (hp : names.Perm (reportNames m))
    (hb : ∀ v q d, HasFile inv v q d → ∀ c ∈ splitOn '/' q, trimSpace c ≠ []) :
    ShowsTree full (reportLines full names) (fun q => ∃ v d, HasFile inv v q d) := by
  have hm : ∀ q, q ∈ names ↔ ∃ v d, HasFile inv v q d := fun q => by rw [hp.mem_iff, mem_reportNames hg h]
  have := reportLines_shows full names (by
    intro q hq c hc
    obtain ⟨v, d, hf⟩ := (hm q).1 hq
    refine hb v q d hf c ?_
    unfold nameParts at hc
    split at hc
    · exact hc
    · exact List.dropLast_subset _ hc)
  simpa only [hm] using this

/-- an object with some folders -/
def repInv : Inv :=
  { ockInv with
    manifest := [("d1".toList, ["v1/content/a/b/c".toList]), ("d2".toList, ["v1/content/x".toList])]
    versions := [("v1".toList, ⟨"t".toList, "m".toList, "u".toList, "mailto:u@x".toList,
      [("d1".toList, ["a/b/c".toList, "a/e".toList]), ("d2".toList, ["x".toList])]⟩)] }

def repMeta (inv : Inv) : ObjMeta Unit :=
  { id := inv.id, alg := inv.digestAlg, head := inv.head
    versions := inv.versions.map (fun e => (e.1, versionMeta e.2))
    files := inv.manifest.filterMap (fun e => if e.2 = [] then none else some (e.1, fileMeta inv [] e.1 e.2))
    ext := none }

theorem repMeta_eq (inv : Inv) : objMetadata inv ([] : List (Str × Res (AMap Str Unit))) = .ok (repMeta inv) := rfl

theorem repInv_good : GoodInv repInv 1 := goodInv_of (by decide) (by decide) (by decide) (by decide) (by decide)

/-- what the full report shows, in one of the orders -/
theorem repInv_lines : reportLines true ["x".toList, "a/e".toList, "a/b/c".toList] =
    [⟨1, 2, "x".toList⟩, ⟨1, 2, "a".toList⟩, ⟨2, 1, "e".toList⟩, ⟨2, 1, "b".toList⟩, ⟨3, 0, "c".toList⟩] := by decide

theorem allFiles_of {inv : Inv} {P : Str → Prop} [DecidablePred P]
    (h : (inv.versions.all (fun v => v.2.state.all (fun e => e.2.all (fun q => decide (P q))))) = true) :
    ∀ v q d, HasFile inv v q d → P q := by
  rintro v q d ⟨ver, ps, h1, h2, h3⟩
  exact of_decide_eq_true (List.all_eq_true.1 (List.all_eq_true.1 (List.all_eq_true.1 h _ h1) _ h2) _ h3)

example : ShowsTree true (reportLines true ["x".toList, "a/e".toList, "a/b/c".toList]) (fun q => ∃ v d, HasFile repInv v q d) :=
  C129_tree_partial repInv_good (repMeta_eq repInv) true (by decide)
    (allFiles_of (P := fun q => ∀ c ∈ splitOn '/' q, trimSpace c ≠ []) (by decide))

/-- an object with a folder whose name is a space -/
def repBlank : Inv :=
  { ockInv with
    manifest := [("d1".toList, ["v1/content/a".toList])]
    versions := [("v1".toList, ⟨"t".toList, "m".toList, "u".toList, "mailto:u@x".toList, [("d1".toList, [" /a/b".toList])]⟩)] }

/-- **C129 does not hold in full**: a folder with a blank name is left out. -/
theorem C129_full_fails : ¬ C129_full := by
  intro h
  have hg : GoodInv repBlank 1 := goodInv_of (by decide) (by decide) (by decide) (by decide) (by decide)
  have hs := h Unit repBlank 1 [] (repMeta repBlank) false [" /a/b".toList] hg (repMeta_eq _) (by decide)
  have h1 := (hs.all [" ".toList]).2 ⟨" /a/b".toList, ⟨"v1".toList, "d1".toList, _, [" /a/b".toList], List.mem_cons_self,
    List.mem_cons_self, List.mem_cons_self⟩, by decide, by decide, Or.inl ⟨"a/b".toList, by decide⟩⟩
  revert h1
  decide

end Gocfl
