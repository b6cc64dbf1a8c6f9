import Verif.Model.JsonRound
import Verif.Props.Reader

/-!
# C137, C138: inventories as files of JSON text

What the other theorems assume about encoding and decoding inventories (`Codec`) is proved here for the text that
`encoding/json` writes and reads, and parts of such a text are shown to be no inventories.
-/

namespace Gocfl

/-! ## C137: an inventory that has been written is read back -/

/-- **C137** in full, for the strings of Go, which are bytes: every string is read as it was written. -/
def C137_full : Prop := ∀ b : Bytes, utf8 (unesc (escGo b)) = b

/-- a string is written like its bytes -/
theorem escGo_utf8 (s : Str) : escGo (utf8 s) = escStr s := by
  unfold escGo; rw [goRunes_utf8]

/-- **C137** for single strings: exactly the strings that are UTF-8 are read as they were written. -/
theorem C137_strings (b : Bytes) : utf8 (unesc (escGo b)) = b ↔ ∃ s, b = utf8 s := by
  unfold escGo
  rw [unesc_escStr]
  constructor
  · intro h; exact ⟨_, h.symm⟩
  · rintro ⟨s, rfl⟩; rw [goRunes_utf8]

/-- **C137**: an inventory whose strings are text is read back from its file with all its contents — every string character
by character —, the maps in any order and the time stamps as they are written. -/
theorem C137_read_back_partial {c : Clock} {inv : Inv} (hc : ∀ t, c.ok (c.time t) = true) (hk : FixKeys inv)
    (hv : (mkeys inv.versions).Nodup) (hm : MapKeysOk inv) :
    ∃ r, invOfText c (invText c inv) = some r ∧ Reordered (rawOf (stampInv c.time inv)) r := by
  have h := invOfText_invText hc hk hv hm
  have hnil : ∀ v, (mget ((byKey inv.versions).map (fun e => (e.1, ({} : VMeta)))) v).getD {} = ({} : VMeta) := by
    intro v
    cases hg : mget ((byKey inv.versions).map (fun e => (e.1, ({} : VMeta)))) v with
    | none => rfl
    | some m =>
      obtain ⟨e, _, he⟩ := List.mem_map.1 (mem_of_mget hg)
      cases he; rfl
  refine ⟨_, h, ?_⟩
  exact {
    id := rfl, spec := rfl, digestAlg := rfl, head := rfl, contentDirectory := rfl, headNil := rfl, headErr := rfl
    manifestNil := rfl, versionsNil := rfl
    vm := fun v => (hnil v).symm
    manifest := (byKey_perm _).symm
    versionKeys := by
      show (mkeys (stampInv c.time inv).versions).Perm (mkeys ((byKey inv.versions).map fun e => (e.1, keptVersion c e.2)))
      rw [stampInv_keys]
      simp only [mkeys, List.map_map, Function.comp_def]
      exact ((byKey_perm inv.versions).map (fun e => e.1)).symm
    versions := by
      intro k v h
      simp only [rawOf, stampInv, List.mem_map, Prod.mk.injEq] at h
      obtain ⟨e, he, rfl, rfl⟩ := h
      exact ⟨keptVersion c e.2, List.mem_map.2 ⟨e, (byKey_perm _).mem_iff.2 he, rfl⟩, rfl, rfl, rfl, rfl, (byKey_perm _).symm⟩
    versions' := by
      intro k v h
      have h : (k, v) ∈ (byKey inv.versions).map (fun e => (e.1, keptVersion c e.2)) := h
      rw [List.mem_map] at h
      obtain ⟨e, he, h⟩ := h
      cases h
      exact ⟨_, List.mem_map.2 ⟨e, (byKey_perm _).mem_iff.1 he, rfl⟩, rfl, rfl, rfl, rfl, (byKey_perm _).symm⟩
    fixity := by
      intro a m h
      exact ⟨byKey m, List.mem_map.2 ⟨(a, m), (byKey_perm _).mem_iff.2 h, rfl⟩, (byKey_perm _).symm⟩
    fixity' := by
      intro a m h
      have h : (a, m) ∈ (byKey inv.fixity).map (fun e => (e.1, byKey e.2)) := h
      rw [List.mem_map] at h
      obtain ⟨e, he, h⟩ := h
      cases h
      exact ⟨e.2, (byKey_perm _).mem_iff.1 he, (byKey_perm _).symm⟩
    fixityKeys := by
      show (mkeys inv.fixity).Perm (mkeys ((byKey inv.fixity).map fun e => (e.1, byKey e.2)))
      simp only [mkeys, List.map_map, Function.comp_def]
      exact ((byKey_perm inv.fixity).map (fun e => e.1)).symm }

/-- **C137**: what the theorems about stored objects assume of encoding and decoding holds for JSON files. -/
theorem C137_codec (w : World) {c : Clock} (hc : ∀ t, c.ok (c.time t) = true) : Codec (jsonWorld w c) where
  roundTrip := fun _ hk hv hm => C137_read_back_partial hc hk hv hm
  empty := rfl

/-- **C137**: two inventories with the same file have the same contents. -/
theorem C137_one_inventory_partial {c : Clock} {i j : Inv} (hc : ∀ t, c.ok (c.time t) = true) (hi : FixKeys i) (hj : FixKeys j)
    (hvi : (mkeys i.versions).Nodup) (hvj : (mkeys j.versions).Nodup) (hmi : MapKeysOk i) (hmj : MapKeysOk j)
    (h : invText c i = invText c j) :
    i.id = j.id ∧ i.spec = j.spec ∧ i.digestAlg = j.digestAlg ∧ i.head = j.head ∧ i.contentDirectory = j.contentDirectory ∧
    i.manifest.Perm j.manifest ∧ (mkeys i.versions).Perm (mkeys j.versions) ∧
    (∀ k v, (k, v) ∈ i.versions → ∃ u, (k, u) ∈ j.versions ∧ c.time v.created = c.time u.created ∧ v.message = u.message ∧
      v.userName = u.userName ∧ v.userAddress = u.userAddress ∧ v.state.Perm u.state) := by
  obtain ⟨r, h1, h2⟩ := C137_read_back_partial hc hi hvi hmi
  obtain ⟨r', h1', h2'⟩ := C137_read_back_partial hc hj hvj hmj
  rw [h, h1'] at h1
  cases h1
  have hkeys := h2.versionKeys.trans h2'.versionKeys.symm
  simp only [rawOf, stampInv_keys] at hkeys
  refine ⟨h2.id.trans h2'.id.symm, h2.spec.trans h2'.spec.symm, h2.digestAlg.trans h2'.digestAlg.symm, h2.head.trans h2'.head.symm,
    h2.contentDirectory.trans h2'.contentDirectory.symm, h2.manifest.trans h2'.manifest.symm, hkeys, ?_⟩
  intro k v hv
  obtain ⟨x, hx, a1, a2, a3, a4, a5⟩ := h2.versions k { v with created := c.time v.created } (List.mem_map.2 ⟨(k, v), hv, rfl⟩)
  obtain ⟨y, hy, b1, b2, b3, b4, b5⟩ := h2'.versions' k x hx
  simp only [rawOf, stampInv, List.mem_map] at hy
  obtain ⟨e, he, hy⟩ := hy
  cases hy
  exact ⟨e.2, he, a1.trans b1.symm, a2.trans b2.symm, a3.trans b3.symm, a4.trans b4.symm, a5.trans b5.symm⟩

/-- **C137 fails** for strings that are no text: the two bytes `ff` and `fe` are read as the same character. -/
theorem C137_full_fails : ¬ C137_full := by
  intro h
  exact absurd (h [0xff]) (by decide)

/-- two different names, one text -/
example : escGo [0xff] = escGo [0xfe] := by decide

/-! ## C138: a part of an inventory file is no inventory -/

theorem invOfText_parse {c : Clock} {b : Bytes} {r : RawInv} (h : invOfText c b = some r) : ∃ l, parseJson b = some (.obj l) := by
  unfold invOfText at h
  split at h
  · cases h
  · rename_i v hv
    split at h
    · cases h
    · split at h
      · exact ⟨_, hv⟩
      · cases h

/-- **C138** for any file that can be read as an inventory and does not end with white space, by whatever program it was
written: no proper beginning of it can be read as an inventory. -/
theorem C138_part {c : Clock} {b1 b2 : Bytes} (h : invOfText c (b1 ++ b2) ≠ none) (h2 : b2 ≠ [])
    (hw : isWs (b2.getLast h2) = false) : invOfText c b1 = none := by
  cases h1 : invOfText c b1 with
  | none => rfl
  | some r =>
    obtain ⟨x, hx⟩ := Option.ne_none_iff_exists'.1 h
    obtain ⟨l, hl⟩ := invOfText_parse hx
    obtain ⟨l1, hl1⟩ := invOfText_parse h1
    have := (skipWs_nil_iff b2).1 (parse_part hl hl1).2 _ (List.getLast_mem h2)
    rw [hw] at this; cases this

/-- **C138** with white space at the end: a beginning that can be read as an inventory is the same inventory. -/
theorem C138_same {c : Clock} {b1 b2 : Bytes} {r r1 : RawInv} (h : invOfText c (b1 ++ b2) = some r)
    (h1 : invOfText c b1 = some r1) : r1 = r ∧ ∀ x ∈ b2, isWs x = true := by
  obtain ⟨l, hl⟩ := invOfText_parse h
  obtain ⟨l1, hl1⟩ := invOfText_parse h1
  obtain ⟨he, hs⟩ := parse_part hl hl1
  cases he
  refine ⟨?_, (skipWs_nil_iff b2).1 hs⟩
  unfold invOfText at h h1
  rw [hl] at h
  rw [hl1, h] at h1
  cases h1; rfl

theorem objText_last (d : Nat) {l : List (Str × Bytes)} (h : l ≠ []) : ∃ t, objText d l = t ++ [ch '}'] := by
  unfold objText
  rw [if_neg h]
  exact ⟨ch '{' :: (lines (d + 1) (l.map (fun e => member e.1 e.2)) ++ nl d), by simp only [List.cons_append, List.append_assoc]⟩

/-- the file of an inventory ends with a brace -/
theorem invText_last (c : Clock) (inv : Inv) : ∃ t, invText c inv = t ++ [ch '}'] := by
  unfold invText
  refine objText_last 0 ?_
  intro h
  have := congrArg List.length h
  simp only [List.length_append, List.length_cons, List.length_nil] at this
  omega

/-- **C138**: a proper beginning of the file of an inventory is no JSON and cannot be read as an inventory. -/
theorem C138_part_of_written (c : Clock) (inv : Inv) {b1 b2 : Bytes} (h2 : b2 ≠ []) (h : invText c inv = b1 ++ b2) :
    parseJson b1 = none ∧ invOfText c b1 = none := by
  have key : parseJson b1 = none := by
    cases h1 : parseJson b1 with
    | none => rfl
    | some v =>
      have hp := (reads_inv c inv).parse
      rw [h] at hp
      have hs := (skipWs_nil_iff b2).1 (parse_part hp h1).2 _ (List.getLast_mem h2)
      obtain ⟨t, ht⟩ := invText_last c inv
      have hl : b2.getLast h2 = ch '}' := by
        have e : (b1 ++ b2).getLast (by simp [h2]) = b2.getLast h2 := List.getLast_append_of_ne_nil _ h2
        rw [← e]
        simp only [← h, ht, List.getLast_append, List.getLast_singleton]
        simp
      rw [hl] at hs
      exact absurd hs (by decide)
  refine ⟨key, ?_⟩
  unfold invOfText
  rw [key]

/-- **C138**: a writing session that is interrupted anywhere leaves the object as it was, or unreadable, or as the session
meant it. -/
theorem C138_interrupted_partial {w : World} {c : Clock} (hc : ∀ t, c.ok (c.time t) = true) {env : Env} {fs : FS} {inv : Inv}
    {n : Nat} {s : Session} {t' : List FsOp} (hwf : WF inv n) (hk : FixKeys inv) (hcd : ValidComp inv.contentDir)
    (hs : SafeNames (jsonWorld w c) s) (he : (session (jsonWorld w c) inv s).err = none)
    (hm : (session (jsonWorld w c) inv s).obj.inv.modified = true) (hne : NoEmptyPath (session (jsonWorld w c) inv s).obj.inv)
    (ht : CrashPrefix t' (session (jsonWorld w c) inv s).obj.trace) :
    loadRoot (jsonWorld w c) env (applyOps fs t') = loadRoot (jsonWorld w c) env fs ∨
    (∃ e, loadRoot (jsonWorld w c) env (applyOps fs t') = .error e) ∨
    (∃ i g, loadRoot (jsonWorld w c) env (applyOps fs t') = .ok (i, g) ∧ i.head = (session (jsonWorld w c) inv s).obj.inv.head ∧
      (mkeys (session (jsonWorld w c) inv s).obj.inv.versions).Perm (mkeys i.versions)) := by
  rcases C22_crash_points_partial (C137_codec w hc) (env := env) (fs := fs) hwf hk hcd hs he hm hne ht with h | ⟨b1, b2, h1, h2, h3⟩ | ⟨_, h⟩
  · exact Or.inl h
  · right; left
    have hd : (jsonWorld w c).dec b1 = none := (C138_part_of_written c _ h1 h2).2
    unfold loadRoot
    simp only [h3, hd]
    exact ⟨_, rfl⟩
  · exact Or.inr (Or.inr h)

/-- **C138**, **C136**: an old version that extracts before an update extracts in the middle of it, if the inventory can be
read at all. -/
theorem C138_old_version_partial {w : World} {c : Clock} (hc : ∀ t, c.ok (c.time t) = true) (hx : HexHash w) {env : Env} {fs a : FS}
    {inv : Inv} {n p : Nat} {s : Session} {t : List FsOp} {F : List Fnd} {view : Nat → FS} {v : Str} {xp : ExtractPath} {wm : Bool}
    (h0 : Sound inv n) (hk : FixKeys inv) (hs : SafeNames (jsonWorld w c) s) (hh : w.hash inv.digestAlg ≠ none)
    (hl : loadRoot (jsonWorld w c) env fs = .ok (inv, F)) (hne : NoEmptyPath (session (jsonWorld w c) inv s).obj.inv)
    (hp : inv.paddingLength = (p : Int)) (hu : Uniform p (mkeys (session (jsonWorld w c) inv s).obj.inv.versions))
    (ht : CrashPrefix t (session (jsonWorld w c) inv s).obj.trace) (hv : ∀ k, Since (jsonWorld w c) inv fs s t (view k))
    (hok : (extract (jsonWorld w c) inv fs xp v wm).err = none) {i : Inv} {g : List Fnd}
    (hr : loadRootAt (jsonWorld w c) env (applyOps fs t) a = .ok (i, g)) :
    (extractAt (jsonWorld w c) i view xp (selectVersion inv v) wm).err = none ∧
    (extract (jsonWorld w c) inv fs xp v wm).lines.Perm (extractAt (jsonWorld w c) i view xp (selectVersion inv v) wm).lines ∧
    ((∀ p d p' d' x, HasFile inv (selectVersion inv v) p d → HasFile inv (selectVersion inv v) p' d' →
        xp p = .ok (some x) → xp p' = .ok (some x) → d = d') →
      ∀ out x, (wm = true → x ≠ manifestName inv.digestAlg) →
        mget (applyOps out (extractAt (jsonWorld w c) i view xp (selectVersion inv v) wm).trace) x =
          mget (applyOps out (extract (jsonWorld w c) inv fs xp v wm).trace) x) :=
  C136_old_version_partial (C137_codec w hc) hx h0 hk hs hh hl hne hp hu ht hv hok hr
    (fun _ _ h1 h2 => (C138_part_of_written c _ h1 h2).2)

/-! ## C139: keys that are not specified -/

/-- the keys an inventory can have (https://ocfl.io/1.1/spec/#inventory-structure, pkg/ocfl/inventorybase.go:29-36) -/
def inventoryKeys : List Str :=
  ["id".toList, "type".toList, "digestAlgorithm".toList, "head".toList, "contentDirectory".toList, "manifest".toList,
   "versions".toList, "fixity".toList]

/-- **C139** in full: an inventory with a key that is not specified is reported (E102). -/
def C139_full : Prop :=
  ∀ (c : Clock) (env : Env) (b : Bytes) (l : List (Bytes × JV)) (r : RawInv) (x : Inv × List Fnd),
    parseJson b = some (.obj l) → (∃ e ∈ l, unesc e.1 ∉ inventoryKeys) → invOfText c b = some r → finalize env r = .ok x →
    ∃ f ∈ x.2, f.code = .E 102

/-- keys that differ in the case of their letters at most (`foldChar`) -/
def SameKey (a b : Str) : Prop := a.map foldChar = b.map foldChar

theorem isField_congr {name a b : Str} (h : SameKey a b) : isField name a = isField name b := by
  unfold isField; rw [h]

theorem readField_congr (c : Clock) (x : RawInv) {a b : Str} (v : JV) (h : SameKey a b) : readField c x a v = readField c x b v := by
  unfold readField
  simp only [isField_congr h]

theorem readField_unknown (c : Clock) (x : RawInv) {k : Str} (v : JV) (h : ∀ n ∈ inventoryKeys, ¬ SameKey k n) :
    readField c x k v = x := by
  have hf : ∀ n ∈ inventoryKeys, ¬ isField n k = true := by
    intro n hn hk
    unfold isField at hk
    exact h n hn (beq_iff_eq.1 hk)
  unfold readField
  rw [if_neg (hf _ (by decide)), if_neg (hf _ (by decide)), if_neg (hf _ (by decide)), if_neg (hf _ (by decide)),
    if_neg (hf _ (by decide)), if_neg (hf _ (by decide)), if_neg (hf _ (by decide)), if_neg (hf _ (by decide))]

/-- reading the same members after maps that agree about `type` -/
theorem mget_type_congr (l : List (Bytes × JV)) {a b : AMap Str JV} (h : mget a "type".toList = mget b "type".toList) :
    mget (l.foldl (fun (a : AMap Str JV) e => mset a (unesc e.1) e.2) a) "type".toList =
      mget (l.foldl (fun (a : AMap Str JV) e => mset a (unesc e.1) e.2) b) "type".toList := by
  induction l generalizing a b with
  | nil => exact h
  | cons e l ih =>
    refine ih ?_
    rw [mget_mset, mget_mset, h]

/-- **C139**: a member whose key is not specified, whatever its value and wherever it stands, has no influence on what is
read. -/
theorem C139_unknown_ignored {c : Clock} {b b' : Bytes} {l1 l2 : List (Bytes × JV)} {k : Bytes} {v : JV}
    (h : parseJson b = some (.obj (l1 ++ (k, v) :: l2))) (h' : parseJson b' = some (.obj (l1 ++ l2)))
    (hk : ∀ n ∈ inventoryKeys, ¬ SameKey (unesc k) n) : invOfText c b = invOfText c b' := by
  have hne : unesc k ≠ "type".toList := by
    intro he
    exact hk "type".toList (by decide) (by unfold SameKey; rw [he])
  have ht : jsonType (.obj (l1 ++ (k, v) :: l2)) = jsonType (.obj (l1 ++ l2)) := by
    unfold jsonType
    simp only [List.foldl_append, List.foldl_cons]
    rw [mget_type_congr l2 (mget_mset_ne _ hne _)]
  unfold invOfText
  rw [h, h']
  simp only [ht, List.foldl_append, List.foldl_cons, readField_unknown c _ v hk]

/-- **C139**: the case of the letters of the keys has no influence on what is read, `type` excepted. -/
theorem C139_case_ignored {c : Clock} {b b' : Bytes} {l l' : List (Bytes × JV)} (h : parseJson b = some (.obj l))
    (h' : parseJson b' = some (.obj l'))
    (hl : List.Forall₂ (fun e e' => e.2 = e'.2 ∧ SameKey (unesc e.1) (unesc e'.1) ∧
      (unesc e.1 = "type".toList ↔ unesc e'.1 = "type".toList)) l l') : invOfText c b = invOfText c b' := by
  have ht : ∀ a a' : AMap Str JV, mget a "type".toList = mget a' "type".toList →
      mget (l.foldl (fun (a : AMap Str JV) e => mset a (unesc e.1) e.2) a) "type".toList =
      mget (l'.foldl (fun (a : AMap Str JV) e => mset a (unesc e.1) e.2) a') "type".toList := by
    clear h h'
    induction hl with
    | nil => exact fun _ _ h => h
    | @cons e e' l l' he _ ih =>
      obtain ⟨h1, h2, h3⟩ := he
      intro a a' h
      refine ih _ _ ?_
      rw [mget_mset, mget_mset, h, h1]
      by_cases hk : unesc e.1 = "type".toList
      · rw [if_pos hk, if_pos (h3.1 hk)]
      · rw [if_neg hk, if_neg (fun h => hk (h3.2 h))]
  have hr : ∀ x, l.foldl (fun x e => readField c x (unesc e.1) e.2) x = l'.foldl (fun x e => readField c x (unesc e.1) e.2) x := by
    clear h h' ht
    induction hl with
    | nil => exact fun _ => rfl
    | @cons e e' l l' he _ ih =>
      obtain ⟨h1, h2, _⟩ := he
      intro x
      simp only [List.foldl_cons]
      rw [h1, readField_congr c x _ h2, ih]
  have hj : jsonType (.obj l) = jsonType (.obj l') := by
    unfold jsonType
    simp only []
    rw [ht [] [] rfl]
  unfold invOfText
  rw [h, h']
  simp only [hj, hr]

/-- an inventory file with one key more -/
def extraText (c : Clock) (inv : Inv) : Bytes :=
  objText 0
    ([("id".toList, qStr inv.id), ("type".toList, qStr inv.spec), ("digestAlgorithm".toList, qStr inv.digestAlg),
      ("head".toList, qStr inv.head), ("manifest".toList, dmapText 1 inv.manifest),
      ("versions".toList, objText 1 ((byKey inv.versions).map (fun e => (e.1, versionText c 2 e.2)))),
      ("extra".toList, qStr "x".toList)])

theorem parse_extraText (c : Clock) {inv : Inv} (h1 : inv.contentDirectory = []) (h2 : inv.fixity = []) :
    parseJson (extraText c inv) = some (.obj (invMembers c inv ++ (escStr "extra".toList, .str (escStr "x".toList)) :: [])) := by
  have e : invMembers c inv ++ (escStr "extra".toList, .str (escStr "x".toList)) :: [] =
      [(escStr "id".toList, .str (escStr inv.id)), (escStr "type".toList, .str (escStr inv.spec)),
       (escStr "digestAlgorithm".toList, .str (escStr inv.digestAlg)), (escStr "head".toList, .str (escStr inv.head)),
       (escStr "manifest".toList, dmapTree inv.manifest),
       (escStr "versions".toList, .obj ((byKey inv.versions).map (fun e => (escStr e.1, versionTree c e.2)))),
       (escStr "extra".toList, .str (escStr "x".toList))] := by
    unfold invMembers
    rw [if_pos h1, if_pos h2]
    rfl
  rw [e]
  refine Reads.parse (reads_obj 0 ?_)
  exact .cons ⟨rfl, reads_qStr _⟩ (.cons ⟨rfl, reads_qStr _⟩ (.cons ⟨rfl, reads_qStr _⟩ (.cons ⟨rfl, reads_qStr _⟩
    (.cons ⟨rfl, reads_dmap _ _⟩ (.cons ⟨rfl, reads_obj _ (forall2_map _ fun e => ⟨rfl, reads_version _ _ _⟩)⟩
    (.cons ⟨rfl, reads_qStr _⟩ .nil))))))

/-! ## Examples -/

/-- time stamps are kept as they are -/
def exClock : Clock := { time := fun t => t, ok := fun _ => true }

/-- a name with a quotation mark, a line break, an angle bracket, a letter of two bytes and a character of four -/
def oddName : Str := ['"', '\n', '<', 'ü', Char.ofNat 0x1F600]

/-- what is written for it -/
example : escStr oddName = [ch '\\', ch '"', ch '\\', ch 'n', ch '\\', ch 'u', ch '0', ch '0', ch '3', ch 'c', 0xC3, 0xBC, 0xF0, 0x9F, 0x98, 0x80] := by
  decide

/-- an inventory with such a name, a content directory and fixity -/
def oddInv : Inv :=
  { exInv with contentDirectory := "data".toList
               manifest := [("d2".toList, [oddName]), ("d1".toList, ["v1/content/a".toList])]
               fixity := [("md5".toList, [("f1".toList, ["v1/content/a".toList])])] }

theorem oddInv_keys : FixKeys oddInv := by
  refine ⟨by decide, by decide, ?_⟩
  intro a m h
  have h : (a, m) ∈ [("md5".toList, [("f1".toList, ["v1/content/a".toList])])] := h
  simp only [List.mem_cons, List.not_mem_nil, or_false, Prod.mk.injEq] at h
  obtain ⟨rfl, rfl⟩ := h
  decide

example : ∃ r, invOfText exClock (invText exClock oddInv) = some r ∧ Reordered (rawOf (stampInv exClock.time oddInv)) r :=
  C137_read_back_partial (fun _ => rfl) oddInv_keys (by decide) exInv_mapKeysOk

/-- the empty file, and the file without its last brace -/
example : invOfText exClock [] = none ∧ invOfText exClock (invText exClock oddInv).dropLast = none := by
  have hne : invText exClock oddInv ≠ [] := by
    obtain ⟨t, ht⟩ := invText_last exClock oddInv
    rw [ht]; simp
  exact ⟨(C138_part_of_written exClock oddInv hne (List.nil_append _).symm).2,
    (C138_part_of_written exClock oddInv (by simp) (List.dropLast_append_getLast hne).symm).2⟩

/-- the files of the world of the examples, as JSON text -/
def jsonDisk : FS := (rootInvPath, invText exClock exInv) :: exDisk4

theorem json_safe : SafeNames (jsonWorld exWorld4 exClock) slowSession := exTwice_safe ⟨0, by decide⟩ ⟨0, by decide⟩

theorem json_session : (session (jsonWorld exWorld4 exClock) exInv slowSession).err = none ∧
    (session (jsonWorld exWorld4 exClock) exInv slowSession).obj.inv = slowInv := by
  constructor
  · decide
  · decide

/-- A session that adds two contents, interrupted anywhere. -/
example {t' : List FsOp} (ht : CrashPrefix t' (session (jsonWorld exWorld4 exClock) exInv slowSession).obj.trace) :
    loadRoot (jsonWorld exWorld4 exClock) exEnv (applyOps jsonDisk t') = loadRoot (jsonWorld exWorld4 exClock) exEnv jsonDisk ∨
    (∃ e, loadRoot (jsonWorld exWorld4 exClock) exEnv (applyOps jsonDisk t') = .error e) ∨
    (∃ i g, loadRoot (jsonWorld exWorld4 exClock) exEnv (applyOps jsonDisk t') = .ok (i, g) ∧ i.head = "v3".toList) := by
  rcases C138_interrupted_partial (env := exEnv) (fs := jsonDisk) (fun _ => rfl) exInv_wf2 exInv_fixKeys exInv_sound.cdir json_safe
    json_session.1 (by rw [json_session.2]; decide) (by rw [json_session.2]; exact slowInv_noEmpty) ht with h | h | ⟨i, g, h1, h2, _⟩
  · exact Or.inl h
  · exact Or.inr (Or.inl h)
  · exact Or.inr (Or.inr ⟨i, g, h1, by rw [h2, json_session.2]; decide⟩)

/-- **C139 fails**: the key `extra` is not reported. -/
theorem C139_full_fails : ¬ C139_full := by
  intro hf
  have hp := parse_extraText exClock (inv := exInv) rfl rfl
  have hi : invOfText exClock (extraText exClock exInv) = invOfText exClock (invText exClock exInv) := by
    refine C139_unknown_ignored hp ?_ ?_
    · rw [List.append_nil]; exact (reads_inv exClock exInv).parse
    · rw [unesc_escStr]; unfold SameKey; decide
  have h := invOfText_invText (c := exClock) (fun _ => rfl) exInv_fixKeys (by decide) exInv_mapKeysOk
  have hfin : ∃ x, finalize exEnv { inv := keptInv exClock exInv, vmeta := (byKey exInv.versions).map (fun e => (e.1, {})) } = .ok x ∧ x.2 = [] := by
    have hd : (finalize exEnv { inv := keptInv exClock exInv, vmeta := (byKey exInv.versions).map (fun e => (e.1, {})) }).toOption.any
        (fun x => decide (x.2 = [])) = true := by decide
    cases hc : finalize exEnv { inv := keptInv exClock exInv, vmeta := (byKey exInv.versions).map (fun e => (e.1, {})) } with
    | error e => rw [hc] at hd; cases hd
    | ok x => rw [hc] at hd; exact ⟨x, rfl, by simpa [Except.toOption] using hd⟩
  obtain ⟨x, h1, h2⟩ := hfin
  obtain ⟨f, hx, _⟩ := hf exClock exEnv _ _ _ x hp ⟨_, List.mem_append_right _ (List.mem_singleton.2 rfl), by rw [unesc_escStr]; decide⟩
    (hi.trans h) h1
  rw [h2] at hx
  cases hx

end Gocfl
