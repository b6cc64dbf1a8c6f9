import Verif.Model.LayoutLemmas

/-!
# C47–C51: storage layouts

The hash is an arbitrary function with hexadecimal values.  A path that is clean (`CleanRel`) consists of ordinary
components: not empty, not `.` or `..`, without slash; it stays below the directory it is appended to.
-/

namespace Gocfl

/-! ## C47 -/

/-- C47 in full: for every configuration the constructor makes and all ids, the path is clean, its components are
bounded, and ids whose digests differ have different paths. -/
def C47_full : Prop :=
  ∀ (hash : Str → Str) (c : TupleCfg) (id id' p p' : Str), (∀ x, LowHexStr (hash x)) → IsBytes id → IsBytes id' →
    id ≠ [] → layout0003 hash (newTupleCfg c) id = .ok p → layout0003 hash (newTupleCfg c) id' = .ok p' →
    CleanRel p ∧ (∀ x ∈ splitOn '/' p, x.length ≤ 101 + (hash id).length) ∧ (hash id ≠ hash id' → p ≠ p')

/-- the components of a path -/
theorem layout0003_comps {hash : Str → Str} {c : TupleCfg} {id p : Str} (hx : ∀ x, LowHexStr (hash x))
    (h : layout0003 hash (newTupleCfg c) id = .ok p) :
    ∃ ts, splitOn '/' p = ts ++ [encapsulation id (hash id)] ∧ p = joinWith '/' (ts ++ [encapsulation id (hash id)]) ∧
      ∀ t ∈ ts, t ≠ [] ∧ t.length ≤ 32 ∧ ∀ x ∈ t, EscChar x := by
  unfold layout0003 at h
  split at h
  · simp at h
  rw [res_bind_eq_ok] at h
  obtain ⟨ts, hts, h⟩ := h
  cases h
  obtain ⟨hl, ht⟩ := tuples_ok hts
  obtain ⟨hb1, hb2, hb3⟩ := newTupleCfg_bounds c
  have hall : ∀ t ∈ ts, t ≠ [] ∧ t.length ≤ 32 ∧ ∀ x ∈ t, EscChar x := by
    intro t htm
    obtain ⟨h1, h2⟩ := ht t htm
    refine ⟨?_, by omega, fun x hxt => .inl (lowHex_idChar (hx _ x (h2 x hxt)))⟩
    rintro rfl
    have hz : (newTupleCfg c).tupleSize = 0 := by simpa using h1.symm
    rw [hb3] at hz
    rw [hz] at hl
    have : ts = [] := List.length_eq_zero_iff.1 hl
    rw [this] at htm; simp at htm
  refine ⟨ts, ?_, rfl, hall⟩
  apply splitOn_joinWith_noSep (by simp)
  intro t htm
  rcases List.mem_append.1 htm with htm | htm
  · exact fun hs => escChar_slash ((hall t htm).2.2 _ hs)
  · simp at htm; subst htm
    exact fun hs => escChar_slash (encapsulation_chars (hx id) _ hs)

/-- C47: for every configuration and every id the path is clean with components of bounded length; ids without bytes
below 16 have different paths if their digests differ.  Missing: ids with such bytes, which `escape` writes with one
digit. -/
theorem C47_distinct_paths_partial {hash : Str → Str} {c : TupleCfg} {id id' p p' : Str} (hx : ∀ x, LowHexStr (hash x))
    (hne : id ≠ []) (h : layout0003 hash (newTupleCfg c) id = .ok p)
    (h' : layout0003 hash (newTupleCfg c) id' = .ok p') :
    CleanRel p ∧ (∀ x ∈ splitOn '/' p, x.length ≤ 101 + (hash id).length) ∧
      ((∀ b ∈ id, 16 ≤ b.toNat ∧ b.toNat < 256) → (∀ b ∈ id', 16 ≤ b.toNat ∧ b.toNat < 256) →
        hash id ≠ hash id' → p ≠ p') := by
  obtain ⟨ts, hs, hp, hall⟩ := layout0003_comps hx h
  refine ⟨⟨_, by simp, ?_, hp⟩, ?_, ?_⟩
  · intro t ht
    rcases List.mem_append.1 ht with ht | ht
    · exact validComp_of_chars (hall t ht).1 (hall t ht).2.2
    · simp at ht; subst ht
      exact validComp_of_chars (encapsulation_ne_nil hne) (encapsulation_chars (hx id))
  · intro t ht
    rw [hs] at ht
    rcases List.mem_append.1 ht with ht | ht
    · have := (hall t ht).2.1; omega
    · simp at ht; subst ht
      exact encapsulation_length _ _
  · intro hb hb' hd he
    obtain ⟨ts', hs', _, _⟩ := layout0003_comps hx h'
    rw [he, hs'] at hs
    have := (List.append_inj' hs rfl).2
    simp only [List.cons.injEq, and_true] at this
    rcases encapsulation_inj hb' hb this with e | e
    · exact hd (by rw [e])
    · exact hd e.symm

/-- the result also exists: for a sensible configuration the only failure is a digest that is too short -/
theorem C47_total_partial {hash : Str → Str} {c : TupleCfg} (h1 : 0 ≤ c.tupleSize) (h2 : 0 ≤ c.numberOfTuples) (id : Str)
    (hl : (newTupleCfg c).tupleSize * (newTupleCfg c).numberOfTuples ≤ (hash id).length) :
    ∃ ts, layout0003 hash (newTupleCfg c) id = .ok (joinWith '/' (ts ++ [encapsulation id (hash id)])) ∧
      ts.length = (newTupleCfg c).numberOfTuples.toNat ∧
      (∀ t ∈ ts, t.length = (newTupleCfg c).tupleSize.toNat) ∧ ts.flatten <+: hash id := by
  obtain ⟨n1, n2⟩ := newTupleCfg_nonneg h1 h2
  obtain ⟨ts, ht, hl2, hl3, hf⟩ := tuples_nonneg n1 n2 hl
  refine ⟨ts, ?_, hl2, hl3, ?_⟩
  · unfold layout0003
    rw [if_neg (by omega), ht]; rfl
  · rw [hf]; exact List.take_prefix _ _

/-- a toy digest for examples: the sum of the bytes and the length, in decimal (fixed width is not needed) -/
def toyHash (s : Str) : Str := hexNat (s.foldl (fun n c => n * 256 + c.toNat) 1)

theorem toyHash_hex (x : Str) : LowHexStr (toyHash x) := hexNat_lowHex _

def tupleCfg0 : TupleCfg := { tupleSize := 3, numberOfTuples := 0, shortObjectRoot := false }
def tupleCfg1 : TupleCfg := { tupleSize := 2, numberOfTuples := 2, shortObjectRoot := false }

example : layout0003 toyHash (newTupleCfg tupleCfg1) "a:b".toList = .ok "16/13/a%3ab".toList ∧
    layout0003 toyHash (newTupleCfg tupleCfg1) "a;b".toList = .ok "16/13/a%3bb".toList := by decide

/-- C47 is violated: without tuples the ids `\x05c` and `\` share a path. -/
theorem C47_full_fails : ¬ C47_full := by
  intro h
  have := (h toyHash tupleCfg0 [Char.ofNat 5, 'c'] ['\\'] "%5c".toList "%5c".toList toyHash_hex
    (by unfold IsBytes; decide) (by unfold IsBytes; decide) (by decide) (by decide) (by decide)).2.2
  exact this (by decide) rfl

/-! ## C48 -/

/-- the documented shape of a path: the tuples are the beginning of the digest, the last component is the digest or
(short object root) its rest -/
def TupleShape (size num : Nat) (short : Bool) (digest p : Str) : Prop :=
  ∃ (ts : List Str) (rest : Str), ts.length = num ∧ (∀ t ∈ ts, t.length = size) ∧ ts.flatten ++ rest = digest ∧
    p = joinWith '/' (ts ++ [if short then rest else digest])

/-- C48 in full: for every configuration the constructor makes, the path has the documented shape and equal paths mean
equal digests; no crash. -/
def C48_full : Prop :=
  ∀ (hash : Str → Str) (c : TupleCfg) (id id' : Str), (∀ x, LowHexStr (hash x)) →
    (newTupleCfg c).tupleSize * (newTupleCfg c).numberOfTuples ≤ (hash id).length →
    (newTupleCfg c).tupleSize * (newTupleCfg c).numberOfTuples ≤ (hash id').length →
    ∃ p p', layout0004 hash (newTupleCfg c) id = .ok p ∧ layout0004 hash (newTupleCfg c) id' = .ok p' ∧
      TupleShape (newTupleCfg c).tupleSize.toNat (newTupleCfg c).numberOfTuples.toNat c.shortObjectRoot (hash id) p ∧
      (p = p' → hash id = hash id')

/-- equal paths of the documented shape come from equal digests -/
theorem tupleShape_inj {size num : Nat} {short : Bool} {d d' p : Str} (hd : LowHexStr d) (hd' : LowHexStr d')
    (h : TupleShape size num short d p) (h' : TupleShape size num short d' p) : d = d' := by
  obtain ⟨ts, r, _, _, hf, hp⟩ := h
  obtain ⟨ts', r', _, _, hf', hp'⟩ := h'
  have noSlash : ∀ {x : Str}, LowHexStr x → '/' ∉ x := by
    intro x hx hm
    have := hx _ hm
    revert this; unfold LowHex; decide
  have aux : ∀ {e : Str} {us : List Str} {q : Str}, LowHexStr e → us.flatten ++ q = e →
      ∀ t ∈ us ++ [if short then q else e], '/' ∉ t := by
    intro e us q he hu t ht
    apply noSlash
    intro x hx
    rcases List.mem_append.1 ht with ht | ht
    · apply he; rw [← hu]; exact List.mem_append_left _ (List.mem_flatten.2 ⟨t, ht, hx⟩)
    · simp only [List.mem_singleton] at ht
      subst ht
      cases short
      · exact he x hx
      · apply he; rw [← hu]; exact List.mem_append_right _ hx
  rw [hp] at hp'
  have hl := joinWith_inj (by simp) (by simp) (aux hd hf) (aux hd' hf') hp'
  obtain ⟨h1, h2⟩ := List.append_inj' hl rfl
  simp only [List.cons.injEq, and_true] at h2
  cases short
  · exact h2
  · simp only [if_true] at h2
    rw [← hf, ← hf', h1, h2]

theorem layout0004_shape {hash : Str → Str} {c : TupleCfg} (h1 : 0 ≤ c.tupleSize) (h2 : 0 ≤ c.numberOfTuples) {id : Str}
    (hl : c.tupleSize * c.numberOfTuples ≤ (hash id).length) :
    ∃ p, layout0004 hash c id = .ok p ∧
      TupleShape c.tupleSize.toNat c.numberOfTuples.toNat c.shortObjectRoot (hash id) p := by
  obtain ⟨ts, ht, hl2, hl3, hf⟩ := tuples_nonneg h1 h2 hl
  have hn : c.numberOfTuples * c.tupleSize = ((c.numberOfTuples.toNat * c.tupleSize.toNat : Nat) : Int) := by
    push_cast
    rw [Int.toNat_of_nonneg h1, Int.toNat_of_nonneg h2]
  have hl' : c.numberOfTuples.toNat * c.tupleSize.toNat ≤ (hash id).length := by
    rw [mul_comm, hn] at hl; exact_mod_cast hl
  refine ⟨joinWith '/' (ts ++ [if c.shortObjectRoot then (hash id).drop (c.numberOfTuples.toNat * c.tupleSize.toNat)
    else hash id]), ?_, ts, _, hl2, hl3, ?_, rfl⟩
  · unfold layout0004
    rw [if_neg (by omega), ht]
    cases hs : c.shortObjectRoot
    · rfl
    · have : goSlice (hash id) (c.numberOfTuples * c.tupleSize) ((hash id).length : Int) =
          .ok ((hash id).drop (c.numberOfTuples.toNat * c.tupleSize.toNat)) := by
        rw [hn]
        unfold goSlice
        rw [if_pos (by omega)]
        congr 1
        apply List.take_of_length_le
        rw [List.length_drop]; omega
      simp only [if_true, res_bind_ok, this]
  · rw [hf, List.take_append_drop]

/-- C48: for every configuration without negative numbers the path exists, has the documented shape, and equal paths
mean equal digests.  Missing: negative numbers, which the constructor accepts. -/
theorem C48_digest_path_partial {hash : Str → Str} {c : TupleCfg} {id id' : Str} (hx : ∀ x, LowHexStr (hash x))
    (h1 : 0 ≤ c.tupleSize) (h2 : 0 ≤ c.numberOfTuples)
    (hl : (newTupleCfg c).tupleSize * (newTupleCfg c).numberOfTuples ≤ (hash id).length)
    (hl' : (newTupleCfg c).tupleSize * (newTupleCfg c).numberOfTuples ≤ (hash id').length) :
    ∃ p p', layout0004 hash (newTupleCfg c) id = .ok p ∧ layout0004 hash (newTupleCfg c) id' = .ok p' ∧
      TupleShape (newTupleCfg c).tupleSize.toNat (newTupleCfg c).numberOfTuples.toNat c.shortObjectRoot (hash id) p ∧
      (p = p' → hash id = hash id') := by
  obtain ⟨n1, n2⟩ := newTupleCfg_nonneg h1 h2
  have hs : (newTupleCfg c).shortObjectRoot = c.shortObjectRoot := by
    unfold newTupleCfg; simp only
    generalize (if c.numberOfTuples > 32 then 32 else c.numberOfTuples) = n
    generalize (if c.tupleSize > 32 then 32 else c.tupleSize) = s
    split <;> rfl
  obtain ⟨p, hp, sp⟩ := layout0004_shape (hash := hash) n1 n2 hl
  obtain ⟨p', hp', sp'⟩ := layout0004_shape (hash := hash) n1 n2 hl'
  rw [hs] at sp sp'
  exact ⟨p, p', hp, hp', sp, fun he => tupleShape_inj (hx _) (hx _) sp (he ▸ sp')⟩

example : layout0004 toyHash (newTupleCfg { tupleCfg1 with shortObjectRoot := true }) "a:b".toList =
    .ok "16/13/a62".toList := by decide

/-- C48 is violated: with a negative tuple size the loop is left with a crash. -/
theorem C48_full_fails : ¬ C48_full := by
  intro h
  obtain ⟨p, p', hp, _⟩ := h toyHash { tupleSize := -2, numberOfTuples := 3, shortObjectRoot := false } [] [] toyHash_hex
    (by decide) (by decide)
  have : layout0004 toyHash (newTupleCfg { tupleSize := -2, numberOfTuples := 3, shortObjectRoot := false }) [] =
    .error (.panic "slice bounds out of range") := by decide
  rw [this] at hp
  simp at hp

/-- With two negative numbers nothing crashes, but the short object root loses the beginning of the digest: different
digests share a path. -/
theorem C48_full_fails_collision : ∃ (c : TupleCfg) (id id' p : Str), layout0004 toyHash (newTupleCfg c) id = .ok p ∧
    layout0004 toyHash (newTupleCfg c) id' = .ok p ∧ toyHash id ≠ toyHash id' :=
  ⟨{ tupleSize := -1, numberOfTuples := -3, shortObjectRoot := true }, "AB".toList, "QB".toList, "42".toList, by decide,
    by decide, by decide⟩

/-! ## C49 -/

/-- what the layout is documented to return: the part after the last occurrence of the delimiter -/
def AfterLast (delimiter id r : Str) : Prop :=
  (∀ a b, id ≠ a ++ delimiter ++ b) ∧ r = id ∨
  ∃ pre, id = pre ++ delimiter ++ r ∧ ∀ a b, id = a ++ delimiter ++ b → a.length ≤ pre.length

/-- C49 in full: the part after the last delimiter, never empty, and ids with the same prefix stay distinct -/
def C49_full : Prop :=
  ∀ delimiter id : Str, id ≠ [] →
    AfterLast delimiter id (layout0006 delimiter id) ∧ layout0006 delimiter id ≠ [] ∧
    ∀ pre r r' : Str, (∀ a b, r ≠ a ++ delimiter ++ b) → (∀ a b, r' ≠ a ++ delimiter ++ b) →
      layout0006 delimiter (pre ++ delimiter ++ r) = layout0006 delimiter (pre ++ delimiter ++ r') → r = r'

theorem layout0006_spec (delimiter id : Str) : AfterLast delimiter id (layout0006 delimiter id) := by
  unfold layout0006 AfterLast
  cases h : lastIndex id delimiter with
  | none => exact .inl ⟨lastIndex_none h, rfl⟩
  | some i =>
    obtain ⟨h1, h2, h3⟩ := lastIndex_some h
    exact .inr ⟨id.take i, h1, fun a b hab => by rw [h2]; exact h3 a b hab⟩

/-- the specification determines the result -/
theorem afterLast_unique {d id r r' : Str} (h : AfterLast d id r) (h' : AfterLast d id r') : r = r' := by
  rcases h with ⟨h1, rfl⟩ | ⟨pre, h1, h2⟩ <;> rcases h' with ⟨h1', rfl⟩ | ⟨pre', h1', h2'⟩
  · rfl
  · exact absurd h1' (h1 _ _)
  · exact absurd h1 (h1' _ _)
  · have hl : pre.length = pre'.length := le_antisymm (h2' _ _ h1) (h2 _ _ h1')
    rw [h1, List.append_assoc, List.append_assoc] at h1'
    have := (List.append_inj h1' hl).2
    exact List.append_cancel_left this

/-- C49: the result is the part after the last delimiter, determined by that; it is not empty unless the id ends with
the delimiter; ids that share a prefix and differ in a one-component rest free of slashes and delimiters stay distinct.
Missing: ids ending with the delimiter (and so every id, for the empty delimiter). -/
theorem C49_omits_prefix_partial (delimiter id : Str) (hne : id ≠ []) :
    (∀ r, AfterLast delimiter id r ↔ layout0006 delimiter id = r) ∧
    ((∀ a, id ≠ a ++ delimiter) → layout0006 delimiter id ≠ []) ∧
    ∀ pre pre' r r' : Str, AfterLast delimiter (pre ++ r) r → AfterLast delimiter (pre' ++ r') r' →
      layout0006 delimiter (pre ++ r) = layout0006 delimiter (pre' ++ r') → r = r' := by
  refine ⟨fun r => ⟨fun h => afterLast_unique (layout0006_spec _ _) h, fun h => h ▸ layout0006_spec _ _⟩, ?_, ?_⟩
  · intro hend he
    rcases layout0006_spec delimiter id with ⟨_, h⟩ | ⟨pre, h, _⟩
    · exact hne (by rw [← h, he])
    · rw [he, List.append_nil] at h
      exact hend _ h
  · intro pre pre' r r' h h' he
    exact (afterLast_unique h (layout0006_spec _ _)).trans (he.trans (afterLast_unique (layout0006_spec _ _) h'))

example : layout0006 ":".toList "namespace:12887".toList = "12887".toList := by decide
example : layout0006 "edu/".toList "http://edu/x/edu/44".toList = "44".toList := by decide

/-- C49 is violated: an id ending with the delimiter gets the empty path, i.e. the storage root itself. -/
theorem C49_full_fails : ¬ C49_full := by
  intro h
  exact (h ":".toList "a:".toList (by decide)).2.1 (by decide)

/-- and with the empty delimiter every id does -/
theorem C49_empty_delimiter (id : Str) : layout0006 [] id = [] := by
  rcases layout0006_spec [] id with ⟨h, _⟩ | ⟨pre, h, hm⟩
  · exact absurd (by simp) (h id [])
  · have := hm id [] (by simp)
    have hl := congrArg List.length h
    simp only [List.length_append, List.length_nil] at hl
    exact List.length_eq_zero_iff.1 (by omega)

/-! ## C50 -/

/-- C50 in full: every configuration (the constructor accepts all) and every id -/
def C50_full : Prop :=
  ∀ (c : OmitCfg) (id : Str), ∃ (ts : List Str) (rest : Str), layout0007 c id = .ok (joinWith '/' (ts ++ [rest])) ∧
    (ts.length : Int) = c.numberOfTuples ∧ (∀ t ∈ ts, (t.length : Int) = c.tupleSize) ∧
    (if c.delimiter = [] then rest = id else AfterLast c.delimiter id rest)

theorem omitPrefix_spec {d id : Str} (hd : d ≠ []) : AfterLast d id (omitPrefix d id) := by
  have : omitPrefix d id = layout0006 d id := by
    unfold omitPrefix layout0006; rw [if_neg hd]
  rw [this]; exact layout0006_spec d id

theorem zeroPad_length {c : OmitCfg} {id : Str} (hp : c.zeroPadding = "left".toList ∨ c.zeroPadding = "right".toList) :
    c.tupleSize * c.numberOfTuples ≤ (zeroPad c id).length := by
  have hne : "left".toList ≠ "right".toList := by decide
  unfold zeroPad
  rcases hp with hp | hp <;> rw [hp] <;> simp only [hne, hne.symm, if_true, if_false, List.length_append,
    List.length_replicate, List.append_nil, List.nil_append] <;> omega

/-- the string that is cut into tuples -/
def tupleSource (c : OmitCfg) (rest : Str) : Str :=
  if c.reverseObjectRoot then reverseRunes (zeroPad c rest) else zeroPad c rest

/-- C50: for positive tuple size, non-negative number of tuples and a padding of `left` or `right`, the result exists
and consists of the configured tuples — the beginning of the padded (reversed) id — followed by the id without prefix;
ids without delimiter in their rest stay distinct.  Missing: the other configurations, which the constructor
accepts. -/
theorem C50_shape_partial (c : OmitCfg) (id : Str) (hs : 0 < c.tupleSize) (hn : 0 ≤ c.numberOfTuples)
    (hp : c.zeroPadding = "left".toList ∨ c.zeroPadding = "right".toList) :
    ∃ (ts : List Str) (rest : Str), layout0007 c id = .ok (joinWith '/' (ts ++ [rest])) ∧
      (ts.length : Int) = c.numberOfTuples ∧ (∀ t ∈ ts, (t.length : Int) = c.tupleSize) ∧
      (if c.delimiter = [] then rest = id else AfterLast c.delimiter id rest) ∧
      ts.flatten <+: tupleSource c rest := by
  obtain ⟨d, s, n, z, rev⟩ := c
  simp only at hs hn hp ⊢
  obtain ⟨k, rfl⟩ := Int.eq_ofNat_of_zero_le (le_of_lt hs)
  obtain ⟨m, rfl⟩ := Int.eq_ofNat_of_zero_le hn
  have hlen : m * k ≤ (tupleSource ⟨d, k, m, z, rev⟩ (omitPrefix d id)).length := by
    have h1 := zeroPad_length (c := ⟨d, k, m, z, rev⟩) (id := omitPrefix d id) hp
    simp only at h1
    have h2 : m * k ≤ (zeroPad ⟨d, k, m, z, rev⟩ (omitPrefix d id)).length := by
      have : ((m * k : Nat) : Int) ≤ (zeroPad ⟨d, k, m, z, rev⟩ (omitPrefix d id)).length := by
        push_cast; rw [mul_comm]; exact h1
      exact_mod_cast this
    unfold tupleSource
    split
    · exact le_trans h2 (reverseRunes_length _)
    · exact h2
  refine ⟨(List.range m).map (fun i => ((tupleSource ⟨d, k, m, z, rev⟩ (omitPrefix d id)).drop (i * k)).take k),
    omitPrefix d id, ?_, ?_, ?_, ?_, ?_⟩
  · unfold layout0007
    simp only
    rw [if_neg (by omega)]
    have hdiv : (((k : Int) * (m : Int)).tdiv (k : Int)).toNat = m := by
      rw [Int.mul_tdiv_cancel_left _ (by omega)]; simp
    have hb := mapM_blocks hlen
    unfold tupleSource at hb ⊢
    simp only at hb ⊢
    rw [hdiv, hb]; rfl
  · simp
  · intro t ht
    rw [block_length hlen ht]
  · split
    · rename_i h; unfold omitPrefix; rw [if_pos h]
    · rename_i h; exact omitPrefix_spec h
  · rw [blocks_flatten]; exact List.take_prefix _ _

theorem joinWith_length (ts : List Str) (r : Str) {k : Nat} (h : ∀ t ∈ ts, t.length = k) :
    ∃ a, joinWith '/' (ts ++ [r]) = a ++ r ∧ a.length = ts.length * (k + 1) := by
  induction ts with
  | nil => exact ⟨[], by simp [joinWith], by simp⟩
  | cons t ts ih =>
    obtain ⟨a, ha, hl⟩ := ih (fun u hu => h u (by simp [hu]))
    refine ⟨t ++ '/' :: a, ?_, ?_⟩
    · rw [List.cons_append, joinWith_cons (by simp), ha]; simp
    · simp only [List.length_append, List.length_cons, h t (by simp), hl]; ring

/-- C50, collisions: two ids with the same path have the same part after the prefix. -/
theorem C50_collision_free_partial (c : OmitCfg) (id id' p : Str) (hs : 0 < c.tupleSize) (hn : 0 ≤ c.numberOfTuples)
    (hp : c.zeroPadding = "left".toList ∨ c.zeroPadding = "right".toList) (h : layout0007 c id = .ok p)
    (h' : layout0007 c id' = .ok p) : omitPrefix c.delimiter id = omitPrefix c.delimiter id' := by
  obtain ⟨ts, r, h1, h2, h3, h4, _⟩ := C50_shape_partial c id hs hn hp
  obtain ⟨ts', r', h1', h2', h3', h4', _⟩ := C50_shape_partial c id' hs hn hp
  have hr : ∀ {i x : Str}, (if c.delimiter = [] then x = i else AfterLast c.delimiter i x) →
      x = omitPrefix c.delimiter i := by
    intro i x hx
    split at hx
    · rename_i hd; unfold omitPrefix; rw [if_pos hd, hx]
    · rename_i hd; exact afterLast_unique hx (omitPrefix_spec hd)
  rw [← hr h4, ← hr h4']
  rw [h1] at h; rw [h1'] at h'
  have he : joinWith '/' (ts ++ [r]) = joinWith '/' (ts' ++ [r']) := by
    injection h with e; injection h' with e'; rw [e, e']
  obtain ⟨a, ea, la⟩ := joinWith_length ts r (k := c.tupleSize.toNat) (fun t ht => by have := h3 t ht; omega)
  obtain ⟨b, eb, lb⟩ := joinWith_length ts' r' (k := c.tupleSize.toNat) (fun t ht => by have := h3' t ht; omega)
  rw [ea, eb] at he
  have : ts.length = ts'.length := by omega
  exact (List.append_inj he (by rw [la, lb, this])).2

/-- C50: reversing an ASCII string is reversing its bytes -/
theorem C50_reversed (c : OmitCfg) (rest : Str) (ha : ∀ x ∈ rest, x.toNat < 128) (hr : c.reverseObjectRoot = true) :
    tupleSource c rest = (zeroPad c rest).reverse := by
  unfold tupleSource
  rw [if_pos hr]
  apply reverseRunes_ascii
  intro x hx
  unfold zeroPad at hx
  rcases List.mem_append.1 hx with hx | hx
  · rcases List.mem_append.1 hx with hx | hx
    · split at hx
      · exact ha x hx
      · simp at hx
    · rw [List.eq_of_mem_replicate hx]; decide
  · split at hx
    · exact ha x hx
    · simp at hx

example : layout0007 ⟨":".toList, 4, 2, "left".toList, true⟩ "namespace:12887296".toList = .ok "6927/8821/12887296".toList := by decide

example : layout0007 ⟨":".toList, 4, 2, "left".toList, false⟩ "x:1296".toList = .ok "0000/1296/1296".toList := by decide

/-- C50 is violated: tuple size 0 is accepted and crashes. -/
theorem C50_full_fails : ¬ C50_full := by
  intro h
  obtain ⟨ts, rest, h1, _⟩ := h ⟨":".toList, 0, 2, "left".toList, false⟩ "a".toList
  have : layout0007 ⟨":".toList, 0, 2, "left".toList, false⟩ "a".toList = .error (.panic "integer divide by zero") := by
    decide
  rw [this] at h1
  simp at h1

/-- another violation: a padding other than `left` and `right` drops the id, and every id at least as long as the tuples
crashes -/
theorem C50_full_fails_padding : layout0007 ⟨":".toList, 3, 2, "Left".toList, false⟩ "a:123456".toList =
    .error (.panic "slice bounds out of range") := by decide

/-! ## C51 -/

/-- C51 in full: distinct ids have distinct paths, all components bounded by the configured length -/
def C51_full : Prop :=
  ∀ (n : Int) (id id' p p' : Str), layoutPairtree n id = .ok p → layoutPairtree n id' = .ok p' →
    (∀ x ∈ splitOn '/' p, (x.length : Int) ≤ n) ∧ (p = p' → id = id')

theorem pair_comps {n : Int} (hn : 0 < n) {id p : Str} (h : layoutPairtree n id = .ok p) :
    ∃ cs, p = joinWith '/' cs ∧ cs.flatten = pairEncode id ∧ ∀ c ∈ cs, ValidComp c ∧ (c.length : Int) ≤ n := by
  unfold layoutPairtree at h
  rw [if_neg (by omega), if_neg (by omega)] at h
  cases h
  obtain ⟨h1, h2⟩ := chunksFuel_spec (n := n.toNat) (by omega) _ (pairEncode id) le_rfl
  refine ⟨_, rfl, h1, ?_⟩
  intro c hc
  obtain ⟨hc1, hc2⟩ := h2 c hc
  obtain ⟨e1, e2⟩ := pairEncode_chars id
  have hsub : ∀ x ∈ c, x ∈ pairEncode id := by
    intro x hx; rw [← h1]; exact List.mem_flatten.2 ⟨c, hc, hx⟩
  refine ⟨⟨hc1, ?_, ?_, fun hs => e1 (hsub _ hs)⟩, by omega⟩
  · rintro rfl; exact e2 (hsub '.' (by decide))
  · rintro rfl; exact e2 (hsub '.' (by decide))

/-- C51: for a positive length all components are ordinary and bounded, for all ids; ids of characters from U+0010 to
U+00FF without comma have the same path only if they are equal.  Missing: the comma (the encoded form of the full stop),
characters whose code is not written with two digits, lengths below 1. -/
theorem C51_reversible_partial {n : Int} (hn : 0 < n) {id id' p p' : Str} (h : layoutPairtree n id = .ok p)
    (h' : layoutPairtree n id' = .ok p') :
    (id ≠ [] → CleanRel p ∧ ∀ x ∈ splitOn '/' p, (x.length : Int) ≤ n) ∧
    ((∀ c ∈ id, 16 ≤ c.toNat ∧ c.toNat < 256 ∧ c ≠ ',') → (∀ c ∈ id', 16 ≤ c.toNat ∧ c.toNat < 256 ∧ c ≠ ',') →
      p = p' → id = id') := by
  obtain ⟨cs, hp, hf, hc⟩ := pair_comps hn h
  obtain ⟨cs', hp', hf', hc'⟩ := pair_comps hn h'
  refine ⟨?_, ?_⟩
  · intro hne
    have hcs : cs ≠ [] := by
      rintro rfl
      rw [List.flatten_nil, pairEncode_eq] at hf
      cases id with
      | nil => exact hne rfl
      | cons a id =>
        rw [List.flatMap_cons] at hf
        exact pairWord_ne_nil a (List.append_eq_nil_iff.1 hf.symm).1
    refine ⟨⟨cs, hcs, fun c h => (hc c h).1, hp⟩, ?_⟩
    intro x hx
    rw [hp, splitOn_joinWith_noSep hcs (fun c h => (hc c h).1.2.2.2)] at hx
    exact (hc x hx).2
  · intro hi hi' he
    have hcs : cs = cs' := by
      rw [hp, hp'] at he
      by_cases h1 : cs = [] <;> by_cases h2 : cs' = []
      · rw [h1, h2]
      · subst h1
        exact absurd he.symm (joinWith_ne_nil h2 (fun c h => (hc' c h).1.1))
      · subst h2
        exact absurd he (joinWith_ne_nil h1 (fun c h => (hc c h).1.1))
      · exact joinWith_inj h1 h2 (fun c h => (hc c h).1.2.2.2) (fun c h => (hc' c h).1.2.2.2) he
    apply pairEncode_inj hi hi'
    rw [← hf, ← hf', hcs]

/-- a path always exists for positive lengths -/
theorem C51_total {n : Int} (hn : 0 < n) (id : Str) : ∃ p, layoutPairtree n id = .ok p := by
  unfold layoutPairtree
  rw [if_neg (by omega), if_neg (by omega)]
  exact ⟨_, rfl⟩

example : layoutPairtree 2 "ark:/13030/xt12".toList = .ok "ar/k+/=1/30/30/=x/t1/2".toList := by decide

/-- C51 is violated: a full stop and a comma are both written as comma. -/
theorem C51_full_fails : ¬ C51_full := by
  intro h
  exact absurd ((h 2 "a.b".toList "a,b".toList "a,/b".toList "a,/b".toList (by decide) (by decide)).2 rfl) (by decide)

/-- and codes are not of fixed width: U+00E9 followed by `0` is written as U+0E90 -/
theorem C51_full_fails_width : layoutPairtree 2 [Char.ofNat 0xe9, '0'] = layoutPairtree 2 [Char.ofNat 0xe90] := by decide

end Gocfl
