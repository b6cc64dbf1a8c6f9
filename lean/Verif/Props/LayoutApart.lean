import Verif.Props.LayoutConfig
import Verif.Props.Root
import Verif.Props.Concurrent

/-!
# C174: the folders of different objects lie apart

A folder lies in another one if its components begin with those of the other.  Two objects share no file exactly if
neither folder lies in the other (`apart_iff`).
-/

namespace Gocfl

/-- the folder `b` is the folder `a` or lies in it -/
def FolderIn (b a : Str) : Prop := splitOn '/' a <+: splitOn '/' b

theorem folderIn_iff {a b : Str} : FolderIn b a ↔ b = a ∨ ∃ r, b = under a r := by
  unfold FolderIn under
  constructor
  · rintro ⟨t, ht⟩
    by_cases h : t = []
    · left
      rw [h, List.append_nil] at ht
      rw [← joinWith_splitOn '/' a, ← joinWith_splitOn '/' b, ht]
    · right
      refine ⟨joinWith '/' t, ?_⟩
      rw [← joinWith_splitOn '/' b, ← ht, joinWith_append (splitOn_ne_nil _ _) h, joinWith_splitOn]
  · rintro (rfl | ⟨r, rfl⟩)
    · exact List.prefix_rfl
    · rw [splitOn_append]; exact List.prefix_append _ _

theorem apart_iff {a b : Str} : Apart a b ↔ ¬ FolderIn a b ∧ ¬ FolderIn b a := by
  rw [folderIn_iff, folderIn_iff]
  unfold Apart
  constructor
  · rintro ⟨h1, h2, h3⟩
    exact ⟨by rintro (h | ⟨r, h⟩); exacts [h1 h, h2 r h], by rintro (h | ⟨r, h⟩); exacts [h1 h.symm, h3 r h]⟩
  · rintro ⟨h1, h2⟩
    exact ⟨fun h => h1 (.inl h), fun r h => h1 (.inr ⟨r, h⟩), fun r h => h2 (.inr ⟨r, h⟩)⟩

/-- different folders of equal depth are apart -/
theorem apart_of_depth {a b : Str} (h : (splitOn '/' a).length = (splitOn '/' b).length) (hne : a ≠ b) : Apart a b := by
  have key : splitOn '/' a ≠ splitOn '/' b := fun he => hne (by rw [← joinWith_splitOn '/' a, he, joinWith_splitOn])
  exact apart_iff.2 ⟨fun hp => key (hp.eq_of_length h.symm).symm, fun hp => key (hp.eq_of_length h)⟩

/-- **C174, in full**: with every layout, ids that differ (and whose digests differ) have folders none of which is the other or lies
in it. -/
def C174_full : Prop :=
  ∀ (hashes : Str → Option (Str → Str)) (f : CfgFile) (l : Layout) (id id' p p' : Str),
    (∀ a g, hashes a = some g → (∀ x, LowHexStr (g x) ∧ g x ≠ []) ∧ g id ≠ g id') → id ≠ [] → id' ≠ [] → id ≠ id' →
    loadLayout hashes f = .ok l → layoutPath hashes l id = .ok p → layoutPath hashes l id' = .ok p' → Apart p p'

/-- **C174, hashed n-tuple**: for every configuration without negative numbers, ids with different digests have folders that lie
apart. -/
theorem C174_hashed_partial {hashes : Str → Option (Str → Str)} {alg : Str} {g : Str → Str} {c : TupleCfg} {id id' p p' : Str}
    (hg : hashes alg = some g) (hx : ∀ x, LowHexStr (g x)) (h1 : 0 ≤ c.tupleSize) (h2 : 0 ≤ c.numberOfTuples)
    (h : layoutPath hashes (.hashed alg (newTupleCfg c)) id = .ok p)
    (h' : layoutPath hashes (.hashed alg (newTupleCfg c)) id' = .ok p') (hne : g id ≠ g id') : Apart p p' := by
  simp only [layoutPath, hg, Option.getD_some] at h h'
  have hlen : ∀ {i q}, layout0004 g (newTupleCfg c) i = .ok q →
      (newTupleCfg c).tupleSize * (newTupleCfg c).numberOfTuples ≤ (g i).length := by
    intro i q hq
    unfold layout0004 at hq
    split at hq
    · cases hq
    · omega
  obtain ⟨q, q', e1, e2, s1, hinj⟩ := C48_digest_path_partial (c := c) (hash := g) hx h1 h2 (hlen h) (hlen h')
  obtain ⟨_, _, e3, _, s2, _⟩ := C48_digest_path_partial (c := c) (hash := g) hx h1 h2 (hlen h') (hlen h')
  rw [e1] at h; cases h
  rw [e2] at h'; cases h'
  rw [e2] at e3; cases e3
  refine apart_of_depth ?_ (fun he => hne (hinj he))
  have depth : ∀ {d q}, LowHexStr d → TupleShape (newTupleCfg c).tupleSize.toNat (newTupleCfg c).numberOfTuples.toNat c.shortObjectRoot d q →
      (splitOn '/' q).length = (newTupleCfg c).numberOfTuples.toNat + 1 := by
    rintro d q hd ⟨ts, rest, k1, _, k3, rfl⟩
    have ns : ∀ x : Str, (∀ y ∈ x, y ∈ d) → '/' ∉ x := fun x hx hm => by
      have := hd _ (hx _ hm); revert this; unfold LowHex; decide
    rw [splitOn_joinWith_noSep (by simp), List.length_append, k1]; · rfl
    intro t ht
    rcases List.mem_append.1 ht with ht | ht
    · refine ns t (fun y hy => ?_)
      rw [← k3]; exact List.mem_append_left _ (List.mem_flatten.2 ⟨t, ht, hy⟩)
    · rw [List.mem_singleton.1 ht]
      refine ns _ (fun y hy => ?_)
      split at hy
      · rw [← k3]; exact List.mem_append_right _ hy
      · exact hy
  rw [depth (hx _) s1, depth (hx _) s2]

/-- **C174, hash and id**: for every configuration, ids of bytes from 16 on with different digests have folders that lie apart. -/
theorem C174_hashId_partial {hashes : Str → Option (Str → Str)} {alg : Str} {g : Str → Str} {c : TupleCfg} {id id' p p' : Str}
    (hg : hashes alg = some g) (hx : ∀ x, LowHexStr (g x)) (hb : ∀ b ∈ id, 16 ≤ b.toNat ∧ b.toNat < 256)
    (hb' : ∀ b ∈ id', 16 ≤ b.toNat ∧ b.toNat < 256) (hid : id ≠ [])
    (h : layoutPath hashes (.hashId alg (newTupleCfg c)) id = .ok p)
    (h' : layoutPath hashes (.hashId alg (newTupleCfg c)) id' = .ok p') (hne : g id ≠ g id') : Apart p p' := by
  simp only [layoutPath, hg, Option.getD_some] at h h'
  refine apart_of_depth ?_ ((C47_distinct_paths_partial hx hid h h').2.2 hb hb' hne)
  have depth : ∀ {i q}, layout0003 g (newTupleCfg c) i = .ok q →
      (splitOn '/' q).length = (newTupleCfg c).numberOfTuples.toNat + 1 := by
    intro i q hq
    obtain ⟨ts, e1, e2, _⟩ := layout0003_comps hx hq
    unfold layout0003 at hq
    split at hq
    · cases hq
    obtain ⟨us, hu, hq⟩ := res_bind_eq_ok.1 hq
    cases hq
    have e3 : (joinWith '/' (us ++ [encapsulation i (g i)])) = joinWith '/' (ts ++ [encapsulation i (g i)]) := e2
    have hl := (tuples_ok hu).1
    have hsp : splitOn '/' (joinWith '/' (us ++ [encapsulation i (g i)])) = us ++ [encapsulation i (g i)] := by
      apply splitOn_joinWith_noSep (by simp)
      intro t ht hs
      rcases List.mem_append.1 ht with ht | ht
      · have := hx i _ (((tuples_ok hu).2 t ht).2 _ hs)
        revert this; unfold LowHex; decide
      · rw [List.mem_singleton.1 ht] at hs
        exact escChar_slash (encapsulation_chars (hx i) _ hs)
    rw [hsp, List.length_append, hl]; rfl
  rw [depth h, depth h']

/-- **C174, the flat layouts**, exact: the folders lie apart exactly if neither id begins with all components of the other. -/
theorem C174_flat_exact {hashes : Str → Option (Str → Str)} {l : Layout} {id id' p p' : Str} (hl : l = .flatDirect ∨ l = .pathDirect)
    (h : layoutPath hashes l id = .ok p) (h' : layoutPath hashes l id' = .ok p') :
    Apart p p' ↔ ¬ splitOn '/' id <+: splitOn '/' id' ∧ ¬ splitOn '/' id' <+: splitOn '/' id := by
  have e : p = id ∧ p' = id' := by
    rcases hl with rfl | rfl <;> · cases h; cases h'; exact ⟨rfl, rfl⟩
  rw [e.1, e.2, apart_iff]
  exact And.comm

/-- **C174, flat omit prefix**, exact: what counts are the parts after the prefix. -/
theorem C174_omit_exact {hashes : Str → Option (Str → Str)} {d id id' p p' r r' : Str}
    (h : layoutPath hashes (.flatOmit d) id = .ok p) (h' : layoutPath hashes (.flatOmit d) id' = .ok p')
    (hr : AfterLast d id r) (hr' : AfterLast d id' r') :
    Apart p p' ↔ ¬ splitOn '/' r <+: splitOn '/' r' ∧ ¬ splitOn '/' r' <+: splitOn '/' r := by
  cases h; cases h'
  rw [afterLast_unique hr (layout0006_spec _ _), afterLast_unique hr' (layout0006_spec _ _), apart_iff]
  exact And.comm

theorem tupleSource_slash {c : OmitCfg} {rest : Str} (ha : ∀ x ∈ rest, x.toNat < 128 ∧ x ≠ '/') : '/' ∉ tupleSource c rest := by
  have hz : '/' ∉ zeroPad c rest := by
    intro hm
    unfold zeroPad at hm
    rcases List.mem_append.1 hm with hm | hm
    · rcases List.mem_append.1 hm with hm | hm
      · split at hm
        · exact (ha _ hm).2 rfl
        · simp at hm
      · exact absurd (List.eq_of_mem_replicate hm) (by decide)
    · split at hm
      · exact (ha _ hm).2 rfl
      · simp at hm
  by_cases hrev : c.reverseObjectRoot = true
  · rw [C50_reversed c rest (fun x hx => (ha x hx).1) hrev]
    simpa using hz
  · unfold tupleSource; rw [if_neg hrev]; exact hz

/-- **C174, n-tuple omit prefix**: for the configurations that make sense, ids whose parts after the prefix differ and are ASCII without
slash have folders that lie apart. -/
theorem C174_tupleOmit_partial {hashes : Str → Option (Str → Str)} {c : OmitCfg} {id id' p p' : Str} (hs : 0 < c.tupleSize)
    (hn : 0 ≤ c.numberOfTuples) (hp : c.zeroPadding = "left".toList ∨ c.zeroPadding = "right".toList)
    (h : layoutPath hashes (.tupleOmit c) id = .ok p) (h' : layoutPath hashes (.tupleOmit c) id' = .ok p')
    (ha : ∀ x ∈ omitPrefix c.delimiter id, x.toNat < 128 ∧ x ≠ '/') (ha' : ∀ x ∈ omitPrefix c.delimiter id', x.toNat < 128 ∧ x ≠ '/')
    (hne : omitPrefix c.delimiter id ≠ omitPrefix c.delimiter id') : Apart p p' := by
  have h : layout0007 c id = .ok p := h
  have h' : layout0007 c id' = .ok p' := h'
  refine apart_of_depth ?_ (fun he => hne (C50_collision_free_partial c id id' p hs hn hp h (he ▸ h')))
  have depth : ∀ {i q}, layout0007 c i = .ok q → (∀ x ∈ omitPrefix c.delimiter i, x.toNat < 128 ∧ x ≠ '/') →
      (((splitOn '/' q).length : Nat) : Int) = c.numberOfTuples + 1 := by
    intro i q hq hai
    obtain ⟨ts, r, e1, e2, _, e4, e5⟩ := C50_shape_partial c i hs hn hp
    rw [e1] at hq; cases hq
    have hr : r = omitPrefix c.delimiter i := by
      split at e4
      · rename_i hd; unfold omitPrefix; rw [if_pos hd, e4]
      · rename_i hd; exact afterLast_unique e4 (omitPrefix_spec hd)
    rw [← hr] at hai
    rw [splitOn_joinWith_noSep (by simp), List.length_append]
    · push_cast; rw [e2]; rfl
    · intro t ht
      rcases List.mem_append.1 ht with ht | ht
      · intro hm
        exact tupleSource_slash hai (e5.subset (List.mem_flatten.2 ⟨t, ht, hm⟩))
      · rw [List.mem_singleton.1 ht]
        exact fun hm => (hai _ hm).2 rfl
  have := depth h ha
  have := depth h' ha'
  omega

/-! ### Pairtree -/

theorem chunksFuel_more {α : Type} {n : Nat} (hn : 1 ≤ n) (f : Nat) (l : List α) (h : l.length ≤ f) : chunksFuel n f l = chunks n l := by
  have : ∀ f f' (l : List α), l.length ≤ f → l.length ≤ f' → chunksFuel n f l = chunksFuel n f' l := by
    intro f
    induction f with
    | zero =>
      intro f' l h1 _
      cases l with
      | nil => cases f' <;> rfl
      | cons a l => simp at h1
    | succ f ih =>
      intro f' l h1 h2
      cases l with
      | nil => cases f' <;> rfl
      | cons a l =>
        cases f' with
        | zero => simp at h2
        | succ f' =>
          rw [chunksFuel, chunksFuel]
          congr 1
          apply ih
          · rw [List.length_drop]; simp at h1 ⊢; omega
          · rw [List.length_drop]; simp at h2 ⊢; omega
  exact this f l.length l h le_rfl

theorem chunks_cons {α : Type} {n : Nat} (hn : 1 ≤ n) {l : List α} (h : l ≠ []) : chunks n l = l.take n :: chunks n (l.drop n) := by
  cases l with
  | nil => exact absurd rfl h
  | cons a l =>
    show chunksFuel n (l.length + 1) (a :: l) = _
    rw [chunksFuel]
    congr 1
    exact chunksFuel_more hn _ _ (by rw [List.length_drop, List.length_cons]; omega)

theorem chunks_append {α : Type} {n : Nat} (hn : 1 ≤ n) (k : Nat) {a : List α} (b : List α) (h : a.length = n * k) :
    chunks n (a ++ b) = chunks n a ++ chunks n b := by
  induction k generalizing a with
  | zero =>
    have : a = [] := List.length_eq_zero_iff.1 (by simpa using h)
    rw [this]; rfl
  | succ k ih =>
    have hl : n ≤ a.length := by rw [h, Nat.mul_succ]; omega
    have hne : a ≠ [] := by rintro rfl; simp at hl; omega
    rw [chunks_cons hn (l := a ++ b) (by simp [hne]), chunks_cons hn hne, List.take_append_of_le_length hl,
      List.drop_append_of_le_length hl, ih (by rw [List.length_drop, h, Nat.mul_succ]; omega), List.cons_append]

/-- the pieces of `a` are the first pieces of `b` exactly if `a` is `b`, or `b` begins with `a` and `a` is cut without a rest -/
theorem chunks_prefix {α : Type} {n : Nat} (hn : 1 ≤ n) {a b : List α} : chunks n a <+: chunks n b ↔ a = b ∨ a <+: b ∧ n ∣ a.length := by
  constructor
  · intro h
    have flat : ∀ l : List α, (chunks n l).flatten = l := fun l => (chunksFuel_spec hn _ l le_rfl).1
    obtain ⟨m, hm⟩ : ∃ m, a.length ≤ m := ⟨_, le_rfl⟩
    induction m generalizing a b with
    | zero =>
      have : a = [] := List.length_eq_zero_iff.1 (by omega)
      subst this
      exact .inr ⟨List.nil_prefix, by simp⟩
    | succ m ih =>
      by_cases ha : a = []
      · subst ha; exact .inr ⟨List.nil_prefix, by simp⟩
      · have hb : b ≠ [] := by
          rintro rfl
          have := List.prefix_nil.1 h
          rw [chunks_cons hn ha] at this
          cases this
        rw [chunks_cons hn ha, chunks_cons hn hb, List.cons_prefix_cons] at h
        obtain ⟨h1, h2⟩ := h
        have hlen : 0 < a.length := List.length_pos_iff.2 ha
        rcases ih h2 (by rw [List.length_drop]; omega) with h3 | ⟨h3, h4⟩
        · left; rw [← List.take_append_drop n a, ← List.take_append_drop n b, h1, h3]
        · by_cases hle : n ≤ a.length
          · right
            constructor
            · rw [← List.take_append_drop n a, ← List.take_append_drop n b, h1]
              exact (List.prefix_append_right_inj _).2 h3
            · rw [List.length_drop] at h4
              have := Nat.dvd_add h4 (Nat.dvd_refl n)
              rwa [Nat.sub_add_cancel hle] at this
          · left
            have hl := congrArg List.length h1
            rw [List.length_take, List.length_take] at hl
            rw [List.take_of_length_le (by omega), List.take_of_length_le (by omega)] at h1
            exact h1
  · rintro (rfl | ⟨⟨t, rfl⟩, k, hk⟩)
    · exact List.prefix_rfl
    · rw [chunks_append hn k t hk]; exact List.prefix_append _ _

/-- **C174, pairtree**, exact: the folder of an id lies in that of another exactly if the encoded ids are equal, or the longer begins with
the shorter and the length of the shorter is a multiple of the configured length. -/
theorem C174_pairtree_exact {hashes : Str → Option (Str → Str)} {alg : Str} {n : Nat} {id id' p p' : Str} (hn : 1 ≤ n) (hid : id ≠ [])
    (hid' : id' ≠ []) (h : layoutPath hashes (.pairtree alg (n : Int)) id = .ok p)
    (h' : layoutPath hashes (.pairtree alg (n : Int)) id' = .ok p') :
    FolderIn p' p ↔ pairEncode id = pairEncode id' ∨ pairEncode id <+: pairEncode id' ∧ n ∣ (pairEncode id).length := by
  have comps : ∀ {i q}, i ≠ [] → layoutPath hashes (.pairtree alg (n : Int)) i = .ok q → splitOn '/' q = chunks n (pairEncode i) := by
    intro i q hi hq
    have hq : layoutPairtree (n : Int) i = .ok q := hq
    unfold layoutPairtree at hq
    rw [if_neg (by omega), if_neg (by omega)] at hq
    cases hq
    obtain ⟨e1, e2⟩ := chunksFuel_spec hn _ (pairEncode i) le_rfl
    rw [Int.toNat_natCast]
    apply splitOn_joinWith_noSep
    · have : pairEncode i ≠ [] := by
        rw [pairEncode_eq]
        cases i with
        | nil => exact absurd rfl hi
        | cons a i =>
          rw [List.flatMap_cons]
          exact fun he => pairWord_ne_nil a (List.append_eq_nil_iff.1 he).1
      rw [chunks_cons hn this]; simp
    · intro c hc hm
      refine (pairEncode_chars i).1 ?_
      have : c ∈ chunks n (pairEncode i) := hc
      rw [← e1]; exact List.mem_flatten.2 ⟨c, this, hm⟩
  unfold FolderIn
  rw [comps hid h, comps hid' h', chunks_prefix hn]

/-! ### Direct clean -/

/-- **C174, direct clean** with UTF encoding and without fallback, exact: the folders lie apart exactly if neither id begins with all
(non-empty) components of the other. -/
theorem C174_directClean_exact_partial {hashes : Str → Option (Str → Str)} {alg : Str} {c : DCCfg} {id id' p p' : Str} (hu : c.utf = true)
    (hf : FallbackFree c id) (hf' : FallbackFree c id') (hs : segsOf id ≠ []) (hs' : segsOf id' ≠ [])
    (h : layoutPath hashes (.directClean alg c) id = .ok p) (h' : layoutPath hashes (.directClean alg c) id' = .ok p') :
    Apart p p' ↔ ¬ segsOf id <+: segsOf id' ∧ ¬ segsOf id' <+: segsOf id := by
  have comps : ∀ {i q}, segsOf i ≠ [] → FallbackFree c i → layoutPath hashes (.directClean alg c) i = .ok q →
      splitOn '/' q = (segsOf i).map dcSegUTF := by
    intro i q hi hfi hq
    have hq : dcBuild _ c i = .ok q := hq
    rw [dcBuild_free hfi, cleanedSegs_utf hu] at hq
    cases hq
    apply splitOn_joinWith_noSep (by simpa using hi)
    intro m hm
    obtain ⟨k, hk, rfl⟩ := List.mem_map.1 hm
    exact (dcSegUTF_valid (segsOf_mem hk).1 (segsOf_mem hk).2).2.2.2
  have pre : ∀ a b : List Str, a.map dcSegUTF <+: b.map dcSegUTF ↔ a <+: b := by
    intro a
    induction a with
    | nil => intro b; simp
    | cons x a ih =>
      intro b
      cases b with
      | nil => simp
      | cons y b =>
        rw [List.map_cons, List.map_cons, List.cons_prefix_cons, List.cons_prefix_cons, ih]
        exact ⟨fun h => ⟨dcSegUTF_inj h.1, h.2⟩, fun h => ⟨by rw [h.1], h.2⟩⟩
  rw [apart_iff]
  unfold FolderIn
  rw [comps hs hf h, comps hs' hf' h', pre, pre]
  exact And.comm

/-! ### Use: a storage root with the hashed n-tuple layout -/

/-- with digests that are long enough, the folder of an object is the path of the layout -/
theorem hashed_root {hashes : Str → Option (Str → Str)} {alg : Str} {g : Str → Str} {c : TupleCfg} {id : Str} (hg : hashes alg = some g)
    (hne : g id ≠ []) (h1 : 0 ≤ c.tupleSize) (h2 : 0 ≤ c.numberOfTuples)
    (hl : (newTupleCfg c).tupleSize * (newTupleCfg c).numberOfTuples ≤ (g id).length) :
    ∃ p, layoutPath hashes (.hashed alg (newTupleCfg c)) id = .ok p ∧
      rootPath [layoutPath hashes (.hashed alg (newTupleCfg c))] id = (p, false) := by
  obtain ⟨n1, n2⟩ := newTupleCfg_nonneg h1 h2
  obtain ⟨p, hp, ts, rest, k1, _, k3, k4⟩ := layout0004_shape (hash := g) (id := id) n1 n2 hl
  have hp' : layoutPath hashes (.hashed alg (newTupleCfg c)) id = .ok p := by
    simp only [layoutPath, hg, Option.getD_some]; exact hp
  have hpn : p ≠ [] := by
    rintro rfl
    cases ts with
    | nil =>
      simp only [List.nil_append, joinWith, List.flatten_nil] at k3 k4
      split at k4
      · exact hne (by rw [← k3, ← k4])
      · exact hne k4.symm
    | cons t ts =>
      rw [List.cons_append, joinWith_cons (by simp)] at k4
      simp at k4
  refine ⟨p, hp', ?_⟩
  simp only [rootPath, hp', if_neg hpn]

/-- **C174, what follows**: in a storage root with the hashed n-tuple layout, objects opened by id have that id, whatever was created,
added and updated before, as long as the digests of the ids in use differ. -/
theorem C174_opens_own_partial {w : World} {env : Env} {blank : Inv} {I : Str → Prop} {hashes : Str → Option (Str → Str)} {alg : Str}
    {g : Str → Str} {c : TupleCfg} (hg : hashes alg = some g) (hx : ∀ x, LowHexStr (g x) ∧ g x ≠ []) (h1 : 0 ≤ c.tupleSize)
    (h2 : 0 ≤ c.numberOfTuples) (hl : ∀ x, I x → (newTupleCfg c).tupleSize * (newTupleCfg c).numberOfTuples ≤ (g x).length)
    (hinj : ∀ x y, I x → I y → g x = g y → x = y) (hid : KeepsId w) {fs : FS}
    (h : Reached w env true blank [layoutPath hashes (.hashed alg (newTupleCfg c))] I fs) {id : Str} (hI : I id) {inv : Inv} {f : List Fnd}
    (hload : loadByID w env true blank [layoutPath hashes (.hashed alg (newTupleCfg c))] fs id = .ok (inv, f)) : inv.id = id := by
  refine C57_opens_own_partial hid ?_ h hI hload
  intro x y hIx hIy hne
  obtain ⟨p, a1, a2⟩ := hashed_root hg (hx x).2 h1 h2 (hl x hIx)
  obtain ⟨q, b1, b2⟩ := hashed_root hg (hx y).2 h1 h2 (hl y hIy)
  rw [a2, b2]
  exact C174_hashed_partial hg (fun z => (hx z).1) h1 h2 a1 b1 (fun he => hne (hinj x y hIx hIy he))

/-- **C174, what follows** for commands at the same time (C134): with the hashed n-tuple layout, any number of `add` and `update`
commands on objects whose ids have different digests do what each would do alone, whatever the order of their steps. -/
theorem C174_concurrent_partial {w : World} {env : Env} {plain : Bool} {blank : Inv} {hashes : Str → Option (Str → Str)} {alg : Str}
    {g : Str → Str} {c : TupleCfg} (hg : hashes alg = some g) (hx : ∀ x, LowHexStr (g x) ∧ g x ≠ []) (h1 : 0 ≤ c.tupleSize)
    (h2 : 0 ≤ c.numberOfTuples) {ls : List (Str → Res Str)} (hls : ls = [layoutPath hashes (.hashed alg (newTupleCfg c))])
    {results : List (Job × Option GoErr)} {fs fs' : FS}
    (hl : ∀ r ∈ results, (newTupleCfg c).tupleSize * (newTupleCfg c).numberOfTuples ≤ (g r.1.id).length)
    (hd : (results.map (fun r => g r.1.id)).Nodup)
    (h : Conc (jobProgs w env plain blank ls (results.map (·.1))) fs (ended ls results) fs') :
    (∀ r ∈ results, subFS fs' (rootPath ls r.1.id).1 =
        subFS (applyOps fs (r.1.cmd w env plain blank ls fs).1) (rootPath ls r.1.id).1 ∧
      r.2 = (r.1.cmd w env plain blank ls fs).2) ∧
    ∀ q, (∀ r ∈ results, ∀ x, q ≠ under (rootPath ls r.1.id).1 x) → mget fs' q = mget fs q := by
  refine C134_apart_partial ?_ h
  rw [List.pairwise_map]
  rw [List.nodup_iff_pairwise_ne, List.pairwise_map] at hd
  refine hd.imp_of_mem ?_
  intro r r' hr hr' hne
  obtain ⟨p, a1, a2⟩ := hashed_root hg (hx r.1.id).2 h1 h2 (hl r hr)
  obtain ⟨q, b1, b2⟩ := hashed_root hg (hx r'.1.id).2 h1 h2 (hl r' hr')
  rw [hls, a2, b2]
  exact C174_hashed_partial hg (fun z => (hx z).1) h1 h2 a1 b1 hne

theorem toyHash_ne {x : Str} : toyHash x ≠ [] := by
  intro he
  have := Nat.length_toDigits_pos (b := 16) (n := List.foldl (fun n c => n * 256 + c.toNat) 1 x)
  unfold toyHash hexNat at he
  rw [he] at this
  simp at this

/-- the hypotheses are met -/
example (w : World) (env : Env) (plain : Bool) (blank : Inv) :
    let ls := [layoutPath (fun _ => some toyHash) (.hashed [] (newTupleCfg tupleCfg1))]
    let j := exJob "info:a".toList "c".toList [7]
    let k := exJob "info:b".toList "d".toList [8]
    ∃ r r' fs', Conc (jobProgs w env plain blank ls [j, k]) [] (ended ls [(j, r), (k, r')]) fs' ∧
      r = (j.cmd w env plain blank ls []).2 ∧ r' = (k.cmd w env plain blank ls []).2 := by
  intro ls j k
  obtain ⟨errs, fs', h1, h2⟩ := C134_ends (jobProgs w env plain blank ls [j, k]) []
  match errs, h2 with
  | [r, r'], _ =>
    have h3 := (C174_concurrent_partial (g := toyHash) (hashes := fun _ => some toyHash) (alg := []) (c := tupleCfg1)
      (results := [(j, r), (k, r')]) rfl (fun x => ⟨toyHash_hex x, toyHash_ne⟩) (by decide) (by decide) rfl
      (by
        intro x hx
        rcases List.mem_pair.1 hx with rfl | rfl
        · show _ ≤ ((toyHash "info:a".toList).length : Int); decide
        · show _ ≤ ((toyHash "info:b".toList).length : Int); decide)
      (by show [toyHash "info:a".toList, toyHash "info:b".toList].Nodup; decide) h1).1
    exact ⟨r, r', fs', h1, (h3 _ List.mem_cons_self).2, (h3 _ (List.mem_cons_of_mem _ List.mem_cons_self)).2⟩

/-- the hypotheses are met -/
example : ∃ i f, loadByID exKeep exEnv true (blankInv [] []) [layoutPath (fun _ => some toyHash) (.hashed [] (newTupleCfg tupleCfg1))]
    (exStore [layoutPath (fun _ => some toyHash) (.hashed [] (newTupleCfg tupleCfg1))] "info:a".toList) "info:a".toList = .ok (i, f) ∧
    i.id = "info:a".toList := by
  obtain ⟨i, f, h1, _⟩ := exStore_opens exEnv true (blankInv [] []) (id := "info:a".toList)
    (ls := [layoutPath (fun _ => some toyHash) (.hashed [] (newTupleCfg tupleCfg1))]) (Or.inl rfl) (by decide)
  have hI : ∀ P : Str → Prop, P "info:a".toList → P "info:b".toList → ∀ x, x = "info:a".toList ∨ x = "info:b".toList → P x := by
    rintro P h h' x (rfl | rfl) <;> assumption
  refine ⟨i, f, h1, C174_opens_own_partial (hashes := fun _ => some toyHash) (alg := []) (c := tupleCfg1)
    (I := fun x => x = "info:a".toList ∨ x = "info:b".toList) rfl (fun x => ⟨toyHash_hex x, toyHash_ne⟩) (by decide) (by decide)
    (hI _ (by decide) (by decide)) (fun x y hx hy => ?_) exKeep_keepsId (exStore_reached _ _ _ _ _ _ (.inl rfl)) (.inl rfl) h1⟩
  · rcases hx with rfl | rfl <;> rcases hy with rfl | rfl <;> decide

/-! ### Violations -/

/-- **C174 is violated** by the flat layout: the object `a/b` lies in the folder of the object `a`. -/
theorem C174_full_fails : ¬ C174_full := by
  intro h
  have h1 := h (fun _ => none) ⟨nmFlatDirect, [], [], []⟩ .flatDirect "a".toList "a/b".toList "a".toList "a/b".toList nofun (by decide)
    (by decide) (by decide) rfl rfl rfl
  exact h1.2.2 "b".toList rfl

/-- … by the pairtree layout: the object `abde` lies in the folder of the object `ab` … -/
theorem C174_full_fails_pairtree : ¬ C174_full := by
  intro h
  have h1 := h (fun _ => some toyHash) ⟨nmPairtree, [(kShorty, 2)], [], []⟩ (.pairtree [] 2) "ab".toList "abde".toList "ab".toList
    "ab/de".toList (fun a g hg => by cases hg; exact ⟨fun x => ⟨toyHash_hex x, toyHash_ne⟩, by decide⟩) (by decide) (by decide) (by decide)
    rfl rfl rfl
  exact h1.2.2 "de".toList rfl

/-- … and by the direct clean layout, which drops empty components: `a//b` and `a/b` share a folder. -/
theorem C174_full_fails_clean : ¬ C174_full := by
  intro h
  have h1 := h (fun _ => some toyHash) ⟨nmDirectClean, [], [], [(kUtf, true)]⟩ (.directClean "sha512".toList dcUTF) "a//b".toList
    "a/b".toList "a/b".toList "a/b".toList
    (fun a g hg => by cases hg; exact ⟨fun x => ⟨toyHash_hex x, toyHash_ne⟩, by decide⟩) (by decide) (by decide) (by decide)
    rfl rfl rfl
  exact h1.1 rfl

/-- cases of the exact statements -/
example : Apart "a/b".toList "a/c".toList ∧ ¬ Apart "a/b".toList "a".toList := by
  constructor
  · exact (C174_flat_exact (hashes := fun _ => none) (.inl rfl) rfl rfl).2 (by decide)
  · intro h
    exact absurd ((C174_flat_exact (hashes := fun _ => none) (.inl rfl) rfl rfl).1 h) (by decide)

example : Apart "6927/8821/12887296".toList "6927/8822/22887296".toList :=
  C174_tupleOmit_partial (hashes := fun _ => none) (c := ⟨":".toList, 4, 2, "left".toList, true⟩) (id := "x:12887296".toList)
    (id' := "y:22887296".toList) (by decide) (by decide) (.inl rfl) (by decide) (by decide) (by decide) (by decide) (by decide)

example : FolderIn "ab/de".toList "ab".toList :=
  (C174_pairtree_exact (hashes := fun _ => none) (alg := []) (n := 2) (id := "ab".toList) (id' := "abde".toList) (by decide) (by decide)
    (by decide) rfl rfl).2 (by decide)

example : Apart "a/b=u0020c".toList "a/d".toList :=
  (C174_directClean_exact_partial (hashes := fun _ => none) (alg := []) (c := dcUTF) (id := "a/b c".toList) (id' := "a//d".toList) rfl
    (by decide) (by decide) (by decide) (by decide) (by decide) (by decide)).2 (by decide)

example : Apart "b".toList "c".toList :=
  (C174_omit_exact (hashes := fun _ => none) (d := ":".toList) (id := "x:b".toList) (id' := "y:c".toList) (r := "b".toList) (r' := "c".toList)
    (by decide) (by decide) ((C49_omits_prefix_partial ":".toList "x:b".toList (by decide)).1 _ |>.2 (by decide))
    ((C49_omits_prefix_partial ":".toList "y:c".toList (by decide)).1 _ |>.2 (by decide))).2 (by decide)

example : Apart "16/13/a%3ab".toList "16/13/a%3bb".toList :=
  C174_hashId_partial (hashes := fun _ => some toyHash) (alg := []) (g := toyHash) (c := tupleCfg1) (id := "a:b".toList)
    (id' := "a;b".toList) rfl toyHash_hex (by decide) (by decide) (by decide) (by decide) (by decide) (by decide)

end Gocfl
