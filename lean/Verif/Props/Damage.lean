import Verif.Props.AcceptedObject
import Verif.Props.RootCheck

/-! # C189: damage to a file of an object -/

namespace Gocfl

/-- One file of the folder is lost, or its content has changed and its digests with it. -/
structure Damaged (w : World) (fs fs' : FS) (k : Str) : Prop where
  others : ∀ x, x ≠ k → mget fs' x = mget fs x
  there : ∃ b, mget fs k = some b ∧ ∀ b', mget fs' k = some b' → ∀ a h, w.hash a = some h → h b' ≠ h b

/-- the path is listed in the manifest or in the fixity block -/
def ListedIn (i : Inv) (k : Str) : Prop :=
  (∃ d m, (d, m) ∈ i.manifest ∧ k ∈ m) ∨ ∃ a mm d m, (a, mm) ∈ i.fixity ∧ (d, m) ∈ mm ∧ k ∈ m

theorem under_inv (v : Str) : under v rootInvPath = v ++ "/inventory.json".toList := rfl

theorem under_side (v : Str) : under v (rootSidecarPath "sha512".toList) = v ++ "/inventory.json.sha512".toList := rfl

/-- two inventories at one place, the file itself unchanged, are one -/
theorem invAt_unique {w : World} {fs fs' : FS} {r r' : RawInv} (h : InvAt w fs r) (h' : InvAt w fs' r')
    (he : mget fs' rootInvPath = mget fs rootInvPath) : r' = r := by
  obtain ⟨⟨b, _, _, hb, hd, _⟩, _⟩ := h
  obtain ⟨⟨b', _, _, hb', hd', _⟩, _⟩ := h'
  rw [hb, hb'] at he; cases he
  rw [hd] at hd'; cases hd'; rfl

/-- two inventories at one place, the sidecar unchanged, have the same digest -/
theorem invAt_digest {w : World} {fs fs' : FS} {r r' : RawInv} (h : InvAt w fs r) (h' : InvAt w fs' r')
    (he : mget fs' (rootSidecarPath "sha512".toList) = mget fs (rootSidecarPath "sha512".toList)) :
    ∃ b b' hash, mget fs rootInvPath = some b ∧ mget fs' rootInvPath = some b' ∧ w.hash "sha512".toList = some hash ∧ hash b' = hash b := by
  obtain ⟨⟨b, sb, hash, hb, _, hh, hs, ht⟩, C⟩ := h
  obtain ⟨⟨b', sb', hash', hb', _, hh', hs', ht'⟩, C'⟩ := h'
  rw [C.alg] at hh hs
  rw [C'.alg] at hh' hs'
  rw [hh] at hh'; cases hh'
  rw [hs, hs'] at he; cases he
  exact ⟨b, b', hash, hb, hb', hh, sidecarText_unique ht' ht⟩

/-- files listed in an inventory have their content -/
theorem listed_hash {w : World} {fs fs' : FS} {root i : Inv} {k : Str} (P : PartAccepted w fs root i) (P' : PartAccepted w fs' root i)
    (h : ListedIn i k) : ∃ b b' a hash, mget fs k = some b ∧ mget fs' k = some b' ∧ w.hash a = some hash ∧ hash b' = hash b := by
  have key : ∀ {a d}, FileOf w fs (mkeys root.versions) a d k → FileOf w fs' (mkeys root.versions) a d k →
      ∃ b b' a hash, mget fs k = some b ∧ mget fs' k = some b' ∧ w.hash a = some hash ∧ hash b' = hash b := by
    rintro a d ⟨_, _, b, hash, _, _, hb, hh, hd⟩ ⟨_, _, b', hash', _, _, hb', hh', hd'⟩
    rw [hh] at hh'; cases hh'
    exact ⟨b, b', a, hash, hb, hb', hh, hd'.trans hd.symm⟩
  rcases h with ⟨d, m, hm, hk⟩ | ⟨a, mm, d, m, hmm, hm, hk⟩
  · exact key (P.content d m k hm hk) (P'.content d m k hm hk)
  · exact key (P.fixity a mm d m k hmm hm hk) (P'.fixity a mm d m k hmm hm hk)

theorem Damaged.no {w : World} {fs fs' : FS} {k : Str} (D : Damaged w fs fs' k) {b b' : Bytes} {a : Str} {hash : Bytes → Str}
    (hb : mget fs k = some b) (hb' : mget fs' k = some b') (hh : w.hash a = some hash) : hash b' ≠ hash b := by
  obtain ⟨b0, h0, hne⟩ := D.there
  rw [hb] at h0; cases h0
  exact hne b' hb' a hash hh

/-- What is guarded by digests. -/
inductive Guarded (w : World) (plain : Bool) (fs fs' : FS) (r : RawInv) (k : Str) : Prop
  | inventory (h : k = "inventory.json".toList)
  | listed (h : ListedIn r.inv k)
  /-- an inventory of a version; where it may be missing, a change of it -/
  | version (v : Str) (hv : v ∈ mkeys r.inv.versions) (h : k = v ++ "/inventory.json".toList)
      (hp : plain = false ∨ verNumber v = some 1 ∨ mget fs' k ≠ none)
  | versionListed (v : Str) (hv : v ∈ mkeys r.inv.versions) (i : RawInv) (hi : InvAt w (subFS fs v) i) (h : ListedIn i.inv k)
      (hk : k ≠ v ++ "/inventory.json".toList)

theorem damaged_root {w : World} {plain : Bool} {fs fs' : FS} {r r' : RawInv} {k : Str} (O : ObjAccepted w plain fs r)
    (O' : ObjAccepted w plain fs' r') (D : Damaged w fs fs' k) : k ≠ "inventory.json".toList ∧ r' = r := by
  have h1 : k ≠ "inventory.json".toList := by
    rintro rfl
    obtain ⟨b, b', hash, hb, hb', hh, he⟩ := invAt_digest O.root O'.root (D.others _ (by decide))
    exact D.no hb hb' hh he
  exact ⟨h1, invAt_unique O.root O'.root (D.others _ (Ne.symm h1))⟩

theorem append_ne_of_ne {v x y : Str} (h : x ≠ y) : v ++ x ≠ v ++ y := fun hc => h (List.append_cancel_left hc)

/-- **C189.** Loss or change of the root inventory, of a version's inventory, or of a file that is listed in one of them,
is noticed. -/
theorem C189_noticed {w : World} {plain : Bool} {fs fs' : FS} {r : RawInv} {k : Str} (O : ObjAccepted w plain fs r)
    (D : Damaged w fs fs' k) (G : Guarded w plain fs fs' r k) : ¬ ∃ r', ObjAccepted w plain fs' r' := by
  rintro ⟨r', O'⟩
  obtain ⟨hk, rfl⟩ := damaged_root O O' D
  cases G with
  | inventory h => exact hk h
  | listed h =>
    obtain ⟨b, b', a, hash, hb, hb', hh, he⟩ := listed_hash O.part O'.part h
    exact D.no hb hb' hh he
  | version v hv h hp =>
    have hne' : mget fs' (v ++ "/inventory.json".toList) ≠ none := by
      rcases hp with hp | hp | hp
      · exact O'.inventory v hv (.inl hp)
      · exact O'.inventory v hv (.inr hp)
      · rw [← h]; exact hp
    have hne : mget fs (v ++ "/inventory.json".toList) ≠ none := by
      obtain ⟨b, hb, _⟩ := D.there
      rw [← h, hb]; simp
    obtain ⟨i, hi, _⟩ := O.versions v hv hne
    obtain ⟨i', hi', _⟩ := O'.versions v hv hne'
    obtain ⟨b, b', hash, hb, hb', hh, he⟩ := invAt_digest hi hi' (by
      rw [mget_subFS, mget_subFS, under_side]
      exact D.others _ (by rw [h]; exact append_ne_of_ne (by decide)))
    rw [mget_subFS, under_inv, ← h] at hb hb'
    exact D.no hb hb' hh he
  | versionListed v hv i hi h hki =>
    have hsame : mget fs' (v ++ "/inventory.json".toList) = mget fs (v ++ "/inventory.json".toList) := D.others _ (Ne.symm hki)
    have hne : mget fs (v ++ "/inventory.json".toList) ≠ none := by
      obtain ⟨⟨b, _, _, hb, _⟩, _⟩ := hi
      rw [mget_subFS, under_inv] at hb
      rw [hb]; simp
    obtain ⟨j, hj, V⟩ := O.versions v hv hne
    obtain ⟨j', hj', V'⟩ := O'.versions v hv (by rw [hsame]; exact hne)
    obtain rfl := invAt_unique hi hj rfl
    obtain rfl := invAt_unique hj hj' (by rw [mget_subFS, mget_subFS, under_inv]; exact hsame)
    obtain ⟨b, b', a, hash, hb, hb', hh, he⟩ := listed_hash V.part V'.part h
    exact D.no hb hb' hh he

/-- **C189.** A sidecar that is lost, or no longer names the digest of its inventory, is noticed. -/
theorem C189_sidecar {w : World} {plain : Bool} {fs fs' : FS} {r : RawInv} {k : Str} (O : ObjAccepted w plain fs r)
    (hothers : ∀ x, x ≠ k → mget fs' x = mget fs x) {p : Str}
    (hp : p = [] ∧ k = "inventory.json.sha512".toList ∨ ∃ v ∈ mkeys r.inv.versions, p = v ++ ['/'] ∧ k = v ++ "/inventory.json.sha512".toList)
    {b : Bytes} {hash : Bytes → Str} (hb : mget fs (p ++ "inventory.json".toList) = some b) (hh : w.hash "sha512".toList = some hash)
    (hs : ∀ sb, mget fs' k = some sb → ¬ SidecarText (bytesStr sb) (hash b)) : ¬ ∃ r', ObjAccepted w plain fs' r' := by
  rintro ⟨r', O'⟩
  have key : ∀ {fs1 : FS} {i : RawInv}, InvAt w fs1 i → mget fs1 rootInvPath = some b → mget fs1 (rootSidecarPath "sha512".toList) = mget fs' k → False := by
    rintro fs1 i ⟨⟨b1, sb, hash1, hb1, _, hh1, hs1, ht⟩, C⟩ hb1' he
    rw [hb1] at hb1'; cases hb1'
    rw [C.alg] at hh1 hs1
    rw [hh] at hh1; cases hh1
    rw [hs1] at he
    exact hs sb he.symm ht
  rcases hp with ⟨rfl, rfl⟩ | ⟨v, hv, rfl, rfl⟩
  · exact key O'.root (by rw [hothers _ (by decide)]; exact hb) rfl
  · have hr : r' = r := invAt_unique O.root O'.root (hothers _ (by
      intro hc
      have : '/' ∈ rootInvPath := by rw [hc]; simp
      revert this; decide))
    subst hr
    have e : v ++ ['/'] ++ "inventory.json".toList = v ++ "/inventory.json".toList := by simp
    rw [e] at hb
    have hb' : mget fs' (v ++ "/inventory.json".toList) = some b := by
      rw [hothers _ (append_ne_of_ne (by decide))]; exact hb
    obtain ⟨i, hi, _⟩ := O'.versions v hv (by rw [hb']; simp)
    exact key hi (by rw [mget_subFS, under_inv]; exact hb') (by rw [mget_subFS, under_side])

/-! ## The declaration -/

theorem topFiles_append (a b : FS) : topFiles (a ++ b) = topFiles a ++ topFiles b := by
  unfold topFiles; rw [List.filterMap_append]

theorem mset_split {fs : FS} {k : Str} {b b' : Bytes} (h : mget fs k = some b) :
    ∃ l m, fs = l ++ (k, b) :: m ∧ mset fs k b' = l ++ (k, b') :: m := by
  induction fs with
  | nil => cases h
  | cons e fs ih =>
    obtain ⟨k0, b0⟩ := e
    simp only [mget] at h
    by_cases hk : k0 = k
    · subst hk
      rw [if_pos rfl] at h; cases h
      exact ⟨[], fs, rfl, by simp [mset]⟩
    · rw [if_neg hk] at h
      obtain ⟨l, m, h1, h2⟩ := ih h
      exact ⟨(k0, b0) :: l, m, by rw [h1]; rfl, by simp [mset, hk, h2]⟩

/-- the name of a file that may lie in an object is that of a declaration, or has nothing of one -/
theorem matched_tidy {n : Str} (h : MatchedName n) : TidyName objDecl n := by
  rcases h with ⟨c, x, _, hx, rfl⟩ | ⟨num, hn, rfl⟩
  · right
    intro hi
    have h1 := hi.sublist.count_le '_'
    have h2 : List.count '_' ("inventory".toList ++ c :: ("json".toList ++ x)) ≤ 1 := by
      rw [List.count_append, List.count_cons, List.count_append]
      have e1 : List.count '_' "inventory".toList = 0 := by decide
      have e2 : List.count '_' "json".toList = 0 := by decide
      have e3 : List.count '_' x = 0 := by
        clear hi h1
        revert x; decide
      rw [e1, e2, e3]
      split <;> simp
    have h3 : List.count '_' ("0=".toList ++ objDecl) = 2 := by decide
    omega
  · exact .inl ⟨num, hn, rfl⟩

theorem declName_slash {num : Str} (h : IsVersionNum num) : '/' ∉ declName num := by
  obtain ⟨a, c, _, _, ha, hc, rfl⟩ := h
  intro hcon
  unfold declName at hcon
  rcases List.mem_append.1 hcon with h | h
  · revert h; decide
  rcases List.mem_append.1 h with h | h
  · revert h; decide
  rcases List.mem_append.1 h with h | h
  · exact absurd (ha _ h) (by decide)
  rcases List.mem_cons.1 h with h | h
  · revert h; decide
  · exact absurd (hc _ h) (by decide)

/-- When a folder is still recognised after the content of a file has changed. -/
theorem declared_mset {fs : FS} {k v : Str} {b b' : Bytes} (hv : getVersion objDecl (topFiles fs) = .version v) (hb : mget fs k = some b)
    (ht : '/' ∉ k → MatchedName k) :
    (∃ v', getVersion objDecl (topFiles (mset fs k b')) = .version v') ↔
      ∀ num, IsVersionNum num → k = declName num → bytesStr b' = objDecl ++ num ++ "\n".toList ∨ bytesStr b' = objDecl ++ num ++ "\r\n".toList := by
  obtain ⟨l, m, rfl, h2⟩ := mset_split (b' := b') hb
  rw [h2]
  have hsplit : ∀ x : Bytes, topFiles (l ++ (k, x) :: m) =
      topFiles l ++ ((if '/' ∈ k then [] else [⟨k, false, some (bytesStr x)⟩]) ++ topFiles m) := by
    intro x
    rw [topFiles_append]
    congr 1
    unfold topFiles
    rw [List.filterMap_cons]
    by_cases hk : '/' ∈ k <;> simp [hk]
  rw [hsplit] at hv
  rw [hsplit]
  by_cases hk : '/' ∈ k
  · rw [if_pos hk] at hv ⊢
    exact ⟨fun _ num hn he => absurd (he ▸ hk) (declName_slash hn), fun _ => ⟨v, hv⟩⟩
  rw [if_neg hk] at hv ⊢
  have T := matched_tidy (ht hk)
  have hfiles : ∀ x : Bytes, declFiles objDecl (topFiles l ++ ([⟨k, false, some (bytesStr x)⟩] ++ topFiles m)) =
      declFiles objDecl (topFiles l) ++ ((match declFind objDecl k with
        | none => []
        | some u => [((⟨k, false, some (bytesStr x)⟩ : DirEnt), u)]) ++ declFiles objDecl (topFiles m)) := by
    intro x
    rw [declFiles_append, List.singleton_append, declFiles_cons]
    rfl
  cases hf : declFind objDecl k with
  | none =>
    have : getVersion objDecl (topFiles l ++ ([⟨k, false, some (bytesStr b')⟩] ++ topFiles m)) = .version v := by
      rw [← hv, getVersion_eq, getVersion_eq, hfiles, hfiles, hf]
    refine ⟨fun _ num hn he => ?_, fun _ => ⟨v, this⟩⟩
    have := (declFind_tidy T num).2 ⟨hn, he⟩
    rw [hf] at this; cases this
  | some u =>
    obtain ⟨hu, hku⟩ := (declFind_tidy T u).1 hf
    obtain ⟨e, he, _⟩ := getVersion_version hv
    rw [hfiles, hf] at he
    have hl : declFiles objDecl (topFiles l) = [] := by
      cases hl : declFiles objDecl (topFiles l) with
      | nil => rfl
      | cons a t => rw [hl] at he; simp at he
    rw [hl] at he
    have hm : declFiles objDecl (topFiles m) = [] := by simpa using (List.cons.inj he).2
    have hnew : declFiles objDecl (topFiles l ++ ([⟨k, false, some (bytesStr b')⟩] ++ topFiles m)) = [(⟨k, false, some (bytesStr b')⟩, u)] := by
      rw [hfiles, hf, hl, hm]; rfl
    constructor
    · rintro ⟨v', hv'⟩ num hn hk'
      obtain ⟨e', he', hc⟩ := getVersion_version hv'
      rw [hnew] at he'
      cases he'
      have := (declFind_tidy T num).2 ⟨hn, hk'⟩
      rw [hf] at this; cases this
      unfold DeclContentOk at hc
      simpa using hc
    · intro h
      have := h u hu hku
      refine ⟨u, ?_⟩
      rw [getVersion_eq, hnew]
      simp only
      rw [if_neg (by rintro ⟨h1, h2⟩; rcases this with h | h; exacts [h1 h, h2 h]), if_pos trivial]

/-- **C189.** A declaration that is lost is noticed. -/
theorem C189_declaration_lost {w : World} {plain : Bool} {fs fs' : FS} {r : RawInv} {num : Str} (O : ObjAccepted w plain fs r)
    (hn : IsVersionNum num) (hthere : mget fs (declName num) ≠ none)
    (hothers : ∀ x, x ≠ declName num → mget fs' x = mget fs x) (hlost : mget fs' (declName num) = none) : ¬ ∃ r', ObjAccepted w plain fs' r' := by
  rintro ⟨r', O'⟩
  obtain ⟨v, hv⟩ := O.declared
  obtain ⟨v', hv'⟩ := O'.declared
  obtain ⟨e, he, _⟩ := getVersion_version hv
  obtain ⟨e', he', _⟩ := getVersion_version hv'
  obtain ⟨h1, _, h3⟩ := mem_declFiles.1 (show (e', v') ∈ declFiles objDecl (topFiles fs') by rw [he']; simp)
  obtain ⟨n, b, hnb, hns, rfl⟩ := mem_topFiles.1 h1
  have hne : n ≠ declName num := by
    rintro rfl
    exact mget_eq_none_iff.1 hlost (mem_mkeys_of_mem hnb)
  have hfs : mget fs n ≠ none := by
    rw [← hothers n hne]
    exact fun hc => mget_eq_none_iff.1 hc (mem_mkeys_of_mem hnb)
  obtain ⟨b1, hb1⟩ := Option.ne_none_iff_exists'.1 hfs
  obtain ⟨b2, hb2⟩ := Option.ne_none_iff_exists'.1 hthere
  have m1 : ((⟨n, false, some (bytesStr b1)⟩ : DirEnt), v') ∈ declFiles objDecl (topFiles fs) :=
    mem_declFiles.2 ⟨mem_topFiles.2 ⟨n, b1, mem_of_mget hb1, hns, rfl⟩, rfl, h3⟩
  have m2 : ((⟨declName num, false, some (bytesStr b2)⟩ : DirEnt), num) ∈ declFiles objDecl (topFiles fs) :=
    mem_declFiles.2 ⟨mem_topFiles.2 ⟨_, b2, mem_of_mget hb2, declName_slash hn, rfl⟩, rfl, declFind_exact hn⟩
  rw [he, List.mem_singleton] at m1 m2
  have := m1.trans m2.symm
  exact hne (by simpa using congrArg (fun x => x.1.name) this)

/-! ## Exactly which changes go unnoticed -/

/-- The content of the file `k` may become `b'` without notice. -/
structure Harmless (w : World) (fs : FS) (r : RawInv) (k : Str) (b' : Bytes) : Prop where
  inventory : k ≠ "inventory.json".toList
  versionInventory : ∀ v ∈ mkeys r.inv.versions, k ≠ v ++ "/inventory.json".toList
  listed : ¬ ListedIn r.inv k
  versionListed : ∀ v ∈ mkeys r.inv.versions, ∀ i, InvAt w (subFS fs v) i → ¬ ListedIn i.inv k
  /-- a sidecar still says the digest … -/
  sidecar : k = "inventory.json.sha512".toList → ∀ b hash, mget fs "inventory.json".toList = some b →
    w.hash "sha512".toList = some hash → SidecarText (bytesStr b') (hash b)
  versionSidecar : ∀ v ∈ mkeys r.inv.versions, k = v ++ "/inventory.json.sha512".toList → ∀ b hash,
    mget fs (v ++ "/inventory.json".toList) = some b → w.hash "sha512".toList = some hash → SidecarText (bytesStr b') (hash b)
  /-- … and a declaration its version, with one of two ends of line -/
  declaration : ∀ num, IsVersionNum num → k = declName num →
    bytesStr b' = objDecl ++ num ++ "\n".toList ∨ bytesStr b' = objDecl ++ num ++ "\r\n".toList

/-- no digest without a file in manifest and fixity -/
def FilesForDigests (i : Inv) : Prop :=
  (∀ d m, (d, m) ∈ i.manifest → m ≠ []) ∧ ∀ a mm d m, (a, mm) ∈ i.fixity → (d, m) ∈ mm → m ≠ []

theorem invAt_iff {w : World} {fs fs' : FS} (hi : mget fs' rootInvPath = mget fs rootInvPath)
    (hs : ∀ b hash, mget fs rootInvPath = some b → w.hash "sha512".toList = some hash →
      ((∃ sb, mget fs (rootSidecarPath "sha512".toList) = some sb ∧ SidecarText (bytesStr sb) (hash b)) ↔
        ∃ sb, mget fs' (rootSidecarPath "sha512".toList) = some sb ∧ SidecarText (bytesStr sb) (hash b))) (i : RawInv) :
    InvAt w fs i ↔ InvAt w fs' i := by
  constructor
  · rintro ⟨⟨b, sb, hash, h1, h2, h3, h4, h5⟩, C⟩
    rw [C.alg] at h3 h4
    obtain ⟨sb', h4', h5'⟩ := (hs b hash h1 h3).1 ⟨sb, h4, h5⟩
    exact ⟨⟨b, sb', hash, hi.trans h1, h2, by rw [C.alg]; exact h3, by rw [C.alg]; exact h4', h5'⟩, C⟩
  · rintro ⟨⟨b, sb, hash, h1, h2, h3, h4, h5⟩, C⟩
    rw [C.alg] at h3 h4
    rw [hi] at h1
    obtain ⟨sb', h4', h5'⟩ := (hs b hash h1 h3).2 ⟨sb, h4, h5⟩
    exact ⟨⟨b, sb', hash, h1, h2, by rw [C.alg]; exact h3, by rw [C.alg]; exact h4', h5'⟩, C⟩

theorem part_untouched {w : World} {fs fs' : FS} {root i : Inv} {k : Str} (hothers : ∀ x, x ≠ k → mget fs' x = mget fs x)
    (hthere : mget fs k ≠ none) (hl : ¬ ListedIn i k) (hf : FilesForDigests i) (P : PartAccepted w fs root i) : PartAccepted w fs' root i := by
  have hF : ∀ {a d c}, c ≠ k → FileOf w fs (mkeys root.versions) a d c → FileOf w fs' (mkeys root.versions) a d c := by
    rintro a d c hc ⟨v, q, b, hash, hvk, rfl, hb, h1, h2⟩
    exact ⟨v, q, b, hash, hvk, rfl, (hothers _ hc).trans hb, h1, h2⟩
  have hm : ∀ {d m c}, (d, m) ∈ i.manifest → c ∈ m → c ≠ k := by
    rintro d m c h hc rfl
    exact hl (.inl ⟨d, m, h, hc⟩)
  have hx : ∀ {a mm d m c}, (a, mm) ∈ i.fixity → (d, m) ∈ mm → c ∈ m → c ≠ k := by
    rintro a mm d m c h h' hc rfl
    exact hl (.inr ⟨a, mm, d, m, h, h', hc⟩)
  have hcont : ∀ d m c, (d, m) ∈ i.manifest → c ∈ m → FileOf w fs' (mkeys root.versions) i.digestAlg d c := fun d m c h hc =>
    hF (hm h hc) (P.content d m c h hc)
  have hfix : ∀ a mm d m c, (a, mm) ∈ i.fixity → (d, m) ∈ mm → c ∈ m → FileOf w fs' (mkeys root.versions) a d c := fun a mm d m c h h' hc =>
    hF (hx h h' hc) (P.fixity a mm d m c h h' hc)
  refine ⟨P.placed, ?_, hcont, P.fixityAlgs, ?_, hfix, ?_⟩
  · intro d m h
    obtain ⟨c, hc⟩ := List.exists_mem_of_ne_nil _ (hf.1 d m h)
    exact ⟨c, hcont d m c h hc⟩
  · intro a mm d m h h'
    obtain ⟨c, hc⟩ := List.exists_mem_of_ne_nil _ (hf.2 a mm d m h h')
    exact ⟨c, hfix a mm d m c h h' hc⟩
  · intro v t b h1 h2 hb
    by_cases hc : v ++ '/' :: root.contentDir ++ t = k
    · obtain ⟨b0, hb0⟩ := Option.ne_none_iff_exists'.1 hthere
      exact P.listed v t b0 h1 h2 (by rw [hc]; exact hb0)
    · exact P.listed v t b h1 h2 (by rw [← hothers _ hc]; exact hb)

theorem harmless_accepted {w : World} {plain : Bool} {fs : FS} {r : RawInv} {k : Str} {b b' : Bytes} (O : ObjAccepted w plain fs r)
    (hb : mget fs k = some b) (hf : FilesForDigests r.inv)
    (hfv : ∀ v ∈ mkeys r.inv.versions, ∀ i, InvAt w (subFS fs v) i → FilesForDigests i.inv)
    (H : Harmless w fs r k b') : ObjAccepted w plain (mset fs k b') r := by
  obtain ⟨pn, N, hN0, hpN, hhead⟩ := O.root.2.names
  have hothers : ∀ x, x ≠ k → mget (mset fs k b') x = mget fs x := fun x hx => mget_mset_ne _ (Ne.symm hx) _
  have hpres : ∀ x, mget (mset fs k b') x ≠ none ↔ mget fs x ≠ none := by
    intro x
    by_cases hx : x = k
    · subst hx; simp [hb]
    · rw [hothers x hx]
  have hsome : ∀ {x y}, mget (mset fs k b') x = some y → ∃ z, mget fs x = some z := fun {x y} h =>
    Option.ne_none_iff_exists'.1 ((hpres x).1 (by rw [h]; simp))
  have hsome' : ∀ {x y}, mget fs x = some y → ∃ z, mget (mset fs k b') x = some z := fun {x y} h =>
    Option.ne_none_iff_exists'.1 ((hpres x).2 (by rw [h]; simp))
  -- inventories are found as before
  have hroot : InvAt w (mset fs k b') r := by
    refine (invAt_iff (hothers _ (Ne.symm H.inventory)) ?_ r).1 O.root
    intro c hash hc hh
    by_cases hk : k = "inventory.json.sha512".toList
    · subst hk
      have h1 := H.sidecar rfl c hash hc hh
      refine ⟨fun _ => ⟨b', mget_mset_self _ _ _, h1⟩, fun _ => ?_⟩
      obtain ⟨⟨c0, sb, hash0, k1, _, k3, k4, k5⟩, C⟩ := O.root
      rw [C.alg] at k3 k4
      rw [hc] at k1; cases k1
      rw [hh] at k3; cases k3
      exact ⟨sb, k4, k5⟩
    · rw [hothers (rootSidecarPath "sha512".toList) (Ne.symm hk)]
  have hsub : ∀ v ∈ mkeys r.inv.versions, ∀ i, InvAt w (subFS fs v) i ↔ InvAt w (subFS (mset fs k b') v) i := by
    intro v hv i
    refine invAt_iff (by rw [mget_subFS, mget_subFS]; exact hothers _ (Ne.symm (H.versionInventory v hv))) ?_ i
    intro c hash hc hh
    rw [mget_subFS, under_inv] at hc
    rw [mget_subFS, mget_subFS, under_side]
    by_cases hk : k = v ++ "/inventory.json.sha512".toList
    · have h1 := H.versionSidecar v hv hk c hash hc hh
      refine ⟨fun _ => ⟨b', by rw [← hk]; exact mget_mset_self _ _ _, h1⟩, fun _ => ?_⟩
      obtain ⟨j, ⟨⟨c0, sb, hash0, k1, _, k3, k4, k5⟩, C⟩, _⟩ := O.versions v hv (by rw [hc]; simp)
      rw [C.alg] at k3 k4
      rw [mget_subFS, under_inv, hc] at k1; cases k1
      rw [hh] at k3; cases k3
      rw [mget_subFS, under_side] at k4
      exact ⟨sb, k4, k5⟩
    · rw [hothers _ (Ne.symm hk)]
  obtain ⟨v0, hv0⟩ := O.declared
  refine ⟨(declared_mset hv0 hb (fun hs => O.files k b hb hs)).2 H.declaration, hroot, ?_, ?_, ?_, ?_, ?_,
    part_untouched hothers (by rw [hb]; simp) H.listed hf O.part, ?_, ?_, ?_, ?_, ?_, ?_⟩
  · intro n y hy hn
    obtain ⟨z, hz⟩ := hsome hy
    exact O.files n z hz hn
  · intro d q y hy hd
    obtain ⟨z, hz⟩ := hsome hy
    exact O.dirs d q z hz hd
  · intro v hv
    obtain ⟨q, y, hy⟩ := O.folders v hv
    obtain ⟨z, hz⟩ := hsome' hy
    exact ⟨q, z, hz⟩
  · intro v n y hv hy hn
    obtain ⟨z, hz⟩ := hsome hy
    exact O.versionFiles v n z hv hz hn
  · intro hp v hv
    obtain ⟨t, y, hy⟩ := O.content hp v hv
    obtain ⟨z, hz⟩ := hsome' hy
    exact ⟨t, z, hz⟩
  · intro a ha
    exact (O.fixityAlgs a ha).imp_right (fun ⟨v, i, hvk, hi, h⟩ => ⟨v, i, hvk, (hsub v hvk i).1 hi, h⟩)
  · intro v hv hor
    exact (hpres _).2 (O.inventory v hv hor)
  · intro v hv hne
    obtain ⟨i, hi, V⟩ := O.versions v hv ((hpres _).1 hne)
    refine ⟨i, (hsub v hv i).1 hi, V.id, V.head, V.known, V.agree,
      part_untouched hothers (by rw [hb]; simp) (H.versionListed v hv i hi) (hfv v hv i hi) V.part, fun n y hy hn => ?_⟩
    obtain ⟨z, hz⟩ := hsome hy
    exact V.files n z hz hn
  · intro u v i j hu hv h1 hi hj
    exact O.contentDirectory u v i j hu hv h1 ((hsub u hu i).2 hi) ((hsub v hv j).2 hj)
  · intro u v i j n hu hv h1 h2 hi hj
    exact O.specs u v i j n hu hv h1 h2 ((hsub u hu i).2 hi) ((hsub v hv j).2 hj)
  · intro i hi
    exact O.last i ((hsub _ (by rw [hhead]; exact names_last hpN hN0) i).2 hi)

/-- **C189, exactly.** The content of one file of an accepted object is changed, and its digests with it: the object still
validates if and only if the change is harmless. -/
theorem C189_change_iff {w : World} {plain : Bool} {fs : FS} {r : RawInv} {k : Str} {b b' : Bytes} (O : ObjAccepted w plain fs r)
    (hb : mget fs k = some b) (hne : ∀ a h, w.hash a = some h → h b' ≠ h b) (hf : FilesForDigests r.inv)
    (hfv : ∀ v ∈ mkeys r.inv.versions, ∀ i, InvAt w (subFS fs v) i → FilesForDigests i.inv) :
    (∃ r', ObjAccepted w plain (mset fs k b') r') ↔ Harmless w fs r k b' := by
  refine ⟨fun h => ?_, fun H => ⟨r, harmless_accepted O hb hf hfv H⟩⟩
  have hothers : ∀ x, x ≠ k → mget (mset fs k b') x = mget fs x := fun x hx => mget_mset_ne _ (Ne.symm hx) _
  have hnew : mget (mset fs k b') k = some b' := mget_mset_self _ _ _
  have D : Damaged w fs (mset fs k b') k := by
    refine ⟨hothers, b, hb, fun x hx a g hg => ?_⟩
    rw [hnew] at hx; cases hx
    exact hne a g hg
  have hno : ∀ {P : Prop}, Guarded w plain fs (mset fs k b') r k → P := fun G => absurd h (C189_noticed O D G)
  have hvi : ∀ v ∈ mkeys r.inv.versions, k ≠ v ++ "/inventory.json".toList := fun v hv hk =>
    hno (.version v hv hk (.inr (.inr (by rw [hnew]; simp))))
  refine ⟨fun hk => hno (.inventory hk), hvi, fun hl => hno (.listed hl),
    fun v hv i hi hl => hno (.versionListed v hv i hi hl (hvi v hv)), ?_, ?_, ?_⟩
  · intro hk c hash hc hh
    by_contra hcon
    refine C189_sidecar O hothers (p := []) (.inl ⟨rfl, hk⟩) hc hh (fun sb hsb => ?_) h
    rw [hnew] at hsb; cases hsb; exact hcon
  · intro v hv hk c hash hc hh
    by_contra hcon
    refine C189_sidecar O hothers (p := v ++ ['/']) (.inr ⟨v, hv, rfl, hk⟩) (b := c) ?_ hh (fun sb hsb => ?_) h
    · simpa using hc
    · rw [hnew] at hsb; cases hsb; exact hcon
  · obtain ⟨v0, hv0⟩ := O.declared
    obtain ⟨r', O'⟩ := h
    exact (declared_mset hv0 hb (fun hs => O.files k b hb hs)).1 O'.declared

/-! ## As validation shows it -/

/-- **C189** for what digests guard: the object validated before, and does not any more. -/
theorem C189_damage_partial {w : World} {env env' : Env} {plain : Bool} {blank blank' : Inv} {fs fs' : FS} {folder k : Str} (hlow : LowerHash w)
    (h : ∃ F, checkFolder w env plain blank fs folder = .ok F ∧ NoErrors F) (D : Damaged w (subFS fs folder) (subFS fs' folder) k) :
    ∃ r, ObjAccepted w plain (subFS fs folder) r ∧ (Guarded w plain (subFS fs folder) (subFS fs' folder) r k →
      ¬ ∃ F', checkFolder w env' plain blank' fs' folder = .ok F' ∧ NoErrors F') := by
  obtain ⟨r, O⟩ := (C184_accepted_iff hlow).1 h
  refine ⟨r, O, fun G h' => C189_noticed O D G ((C184_accepted_iff hlow).1 h')⟩

/-- The full claim: change of any file outside `logs` and `extensions` is noticed. -/
def C189_full : Prop := ∀ (w : World) (env : Env) (plain : Bool) (blank : Inv) (fs fs' : FS) (folder k : Str), LowerHash w →
  (∃ F, checkFolder w env plain blank fs folder = .ok F ∧ NoErrors F) → Damaged w (subFS fs folder) (subFS fs' folder) k → ¬ Ignored k →
  ¬ ∃ F', checkFolder w env plain blank fs' folder = .ok F' ∧ NoErrors F'

/-- the object of C75's example with one more file -/
def dmgFS (k : Str) (b : Bytes) : FS := ockFS ++ [("o/".toList ++ k, b)]

theorem ock_lower : LowerHash ockWorld := by
  intro a h b hh
  have hh : (if a = "sha512".toList then some (fun b => if b = [1] then "d1".toList else "ad".toList) else none) = some h := hh
  split at hh
  · cases hh
    by_cases hb : b = [1]
    · simp only [hb, if_true]; decide
    · simp only [hb, if_false]; decide
  · cases hh

theorem mget_append_last {l : FS} {k x : Str} {b : Bytes} (h : x ≠ k) : mget (l ++ [(k, b)]) x = mget l x := by
  induction l with
  | nil => show (if k = x then some b else none) = none; rw [if_neg (Ne.symm h)]
  | cons e l ih => obtain ⟨a, c⟩ := e; simp only [mget, List.cons_append]; rw [ih]

theorem dmg_damaged {k : Str} (h1 : mget (subFS (dmgFS k [1]) "o".toList) k = some [1]) (h2 : mget (subFS (dmgFS k []) "o".toList) k = some []) :
    Damaged ockWorld (subFS (dmgFS k [1]) "o".toList) (subFS (dmgFS k []) "o".toList) k := by
  refine ⟨fun x hx => ?_, [1], h1, fun b' hb' a h hh => ?_⟩
  · have hne : under "o".toList x ≠ "o/".toList ++ k := fun hc => hx (List.append_cancel_left (as := "o/".toList) hc)
    rw [mget_subFS, mget_subFS]
    unfold dmgFS
    rw [mget_append_last hne, mget_append_last hne]
  · rw [h2] at hb'; cases hb'
    have hh : (if a = "sha512".toList then some (fun b => if b = [1] then "d1".toList else "ad".toList) else none) = some h := hh
    split at hh
    · cases hh; decide
    · cases hh

theorem checked_of {w : World} {env : Env} {plain : Bool} {blank : Inv} {fs : FS} {folder : Str}
    (h : (checkFolder w env plain blank fs folder).toOption.any (fun F => F.all (fun y => !y.isErr)) = true) :
    ∃ F, checkFolder w env plain blank fs folder = .ok F ∧ NoErrors F := by
  cases hf : checkFolder w env plain blank fs folder with
  | error e => rw [hf] at h; cases h
  | ok F =>
    rw [hf] at h
    have h : F.all (fun y => !y.isErr) = true := h
    exact ⟨F, rfl, fun y hy => by simpa using List.all_eq_true.1 h y hy⟩

/-- C189 is violated: a sidecar of another algorithm is not looked at … -/
theorem C189_full_fails : ¬ C189_full := by
  intro hf
  exact hf ockWorld exEnv false ockInv (dmgFS "inventory.json.md5".toList [1]) (dmgFS "inventory.json.md5".toList []) "o".toList _ ock_lower
    (checked_of (by decide)) (dmg_damaged (by decide) (by decide)) (not_ignored_top (by decide)) (checked_of (by decide))

/-- … nor is a file in a version's folder outside the content directory. -/
theorem C189_full_fails_beside : ¬ C189_full := by
  intro hf
  exact hf ockWorld exEnv false ockInv (dmgFS "v1/notes/n".toList [1]) (dmgFS "v1/notes/n".toList []) "o".toList _ ock_lower
    (checked_of (by decide)) (dmg_damaged (by decide) (by decide)) (not_ignored_under (d := "v1".toList) (by decide) (by decide) (by decide)) (checked_of (by decide))

/-- the example of a change that is noticed: the one content file is emptied -/
example : ¬ ∃ F', checkFolder ockWorld exEnv false ockInv (mset ockFS "o/v1/content/a".toList []) "o".toList = .ok F' ∧ NoErrors F' := by
  have D : Damaged ockWorld (subFS ockFS "o".toList) (subFS (mset ockFS "o/v1/content/a".toList []) "o".toList) "v1/content/a".toList := by
    refine ⟨fun x hx => ?_, [1], by decide, fun b' hb' a h hh => ?_⟩
    · have hne : "o/v1/content/a".toList ≠ under "o".toList x := fun hc => hx (List.append_cancel_left (as := "o/".toList) hc).symm
      rw [mget_subFS, mget_subFS, mget_mset_ne _ hne]
    · rw [show mget (subFS (mset ockFS "o/v1/content/a".toList []) "o".toList) "v1/content/a".toList = some [] by decide] at hb'
      cases hb'
      have hh : (if a = "sha512".toList then some (fun b => if b = [1] then "d1".toList else "ad".toList) else none) = some h := hh
      split at hh
      · cases hh; decide
      · cases hh
  obtain ⟨r, O, h⟩ := C189_damage_partial (env := exEnv) (env' := exEnv) (plain := false) (blank := ockInv) (blank' := ockInv) ock_lower
    ⟨[], ock_accepted, by simp [NoErrors]⟩ D
  refine h (.listed (.inl ?_))
  have hr : r.inv = ockInv := by
    obtain ⟨⟨b, _, _, hb, hd, _⟩, _⟩ := O.root
    rw [show mget (subFS ockFS "o".toList) rootInvPath = some [9] by decide] at hb
    cases hb
    have : ockWorld.dec [9] = some { inv := ockInv, vmeta := [] } := rfl
    rw [this] at hd; cases hd; rfl
  rw [hr]
  exact ⟨"d1".toList, ["v1/content/a".toList], by simp [ockInv], by simp⟩

end Gocfl
