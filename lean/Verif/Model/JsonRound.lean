import Verif.Model.JsonLemmas

/-!
# What is read from the text of an inventory
-/

namespace Gocfl

/-! ## The trees -/

def dmapTree (m : DMap) : JV :=
  .obj ((byKey m).map (fun e => (escStr e.1, .arr (e.2.map (fun s => .str (escStr s))))))

def versionTree (c : Clock) (v : Version) : JV :=
  .obj [(escStr "created".toList, .str (escStr (c.time v.created))), (escStr "message".toList, .str (escStr v.message)),
    (escStr "state".toList, dmapTree v.state),
    (escStr "user".toList, .obj [(escStr "address".toList, .str (escStr v.userAddress)), (escStr "name".toList, .str (escStr v.userName))])]

def invMembers (c : Clock) (inv : Inv) : List (Bytes × JV) :=
  [(escStr "id".toList, .str (escStr inv.id)), (escStr "type".toList, .str (escStr inv.spec)),
    (escStr "digestAlgorithm".toList, .str (escStr inv.digestAlg)), (escStr "head".toList, .str (escStr inv.head))] ++
  (if inv.contentDirectory = [] then [] else [(escStr "contentDirectory".toList, .str (escStr inv.contentDirectory))]) ++
  [(escStr "manifest".toList, dmapTree inv.manifest),
    (escStr "versions".toList, .obj ((byKey inv.versions).map (fun e => (escStr e.1, versionTree c e.2))))] ++
  (if inv.fixity = [] then [] else
    [(escStr "fixity".toList, .obj ((byKey inv.fixity).map (fun e => (escStr e.1, dmapTree e.2))))])

theorem forall2_map {α β γ : Type} {R : β → γ → Prop} {f : α → β} {g : α → γ} (l : List α) (h : ∀ x, R (f x) (g x)) :
    List.Forall₂ R (l.map f) (l.map g) := by
  induction l with
  | nil => exact .nil
  | cons x l ih => exact .cons (h x) ih

theorem reads_dmap (d : Nat) (m : DMap) : Reads (dmapText d m) (dmapTree m) := by
  unfold dmapText dmapTree
  refine reads_obj d (forall2_map _ ?_)
  intro e
  exact ⟨rfl, reads_arr _ (forall2_map _ fun s => reads_qStr s)⟩

theorem reads_version (c : Clock) (d : Nat) (v : Version) : Reads (versionText c d v) (versionTree c v) := by
  unfold versionText versionTree
  refine reads_obj d ?_
  refine .cons ⟨rfl, reads_qStr _⟩ (.cons ⟨rfl, reads_qStr _⟩ (.cons ⟨rfl, reads_dmap _ _⟩ (.cons ⟨rfl, ?_⟩ .nil)))
  exact reads_obj _ (.cons ⟨rfl, reads_qStr _⟩ (.cons ⟨rfl, reads_qStr _⟩ .nil))

theorem reads_inv (c : Clock) (inv : Inv) : Reads (invText c inv) (.obj (invMembers c inv)) := by
  unfold invText invMembers
  refine reads_obj 0 ?_
  refine List.rel_append (List.rel_append (List.rel_append ?_ ?_) ?_) ?_
  · exact .cons ⟨rfl, reads_qStr _⟩ (.cons ⟨rfl, reads_qStr _⟩ (.cons ⟨rfl, reads_qStr _⟩ (.cons ⟨rfl, reads_qStr _⟩ .nil)))
  · split
    · exact .nil
    · exact .cons ⟨rfl, reads_qStr _⟩ .nil
  · exact .cons ⟨rfl, reads_dmap _ _⟩ (.cons ⟨rfl, reads_obj _ (forall2_map _ fun e => ⟨rfl, reads_version _ _ _⟩)⟩ .nil)
  · split
    · exact .nil
    · exact .cons ⟨rfl, reads_obj _ (forall2_map _ fun e => ⟨rfl, reads_dmap _ _⟩)⟩ .nil

/-! ## The values -/

theorem byKey_perm {V : Type} (m : AMap Str V) : (byKey m).Perm m := sortBy_perm _ _

theorem byKey_nodup {V : Type} {m : AMap Str V} (h : (mkeys m).Nodup) : (mkeys (byKey m)).Nodup :=
  ((byKey_perm m).map _).nodup_iff.2 h

/-- an object all of whose keys are different is read member by member -/
theorem foldl_mset {α V : Type} (key : α → Str) (val : α → V) (l : List α) (a : AMap Str V)
    (hn : (mkeys a ++ l.map key).Nodup) :
    l.foldl (fun a e => mset a (key e) (val e)) a = a ++ l.map (fun e => (key e, val e)) := by
  induction l generalizing a with
  | nil => simp
  | cons x l ih =>
    have hx : key x ∉ mkeys a := by
      intro hm
      rw [List.nodup_append] at hn
      exact hn.2.2 _ hm _ (by simp) rfl
    simp only [List.foldl_cons, List.map_cons]
    rw [ih, mset_fresh hx, List.append_assoc]
    · rfl
    · rw [mset_fresh hx]
      simpa [mkeys] using hn

theorem read_dmapTree {m : DMap} (h : (mkeys m).Nodup) : readDMap [] (dmapTree m) = byKey m := by
  unfold dmapTree readDMap
  simp only []
  rw [foldl_mset (fun e : Bytes × JV => unesc e.1) (fun e => readStrs e.2)]
  · simp only [List.nil_append, List.map_map, Function.comp_def, unesc_escStr, readStrs, strField]
    simp
  · simp only [mkeys, List.map_nil, List.nil_append, List.map_map, Function.comp_def, unesc_escStr]
    exact byKey_nodup h

/-- a version as it is read back -/
def keptVersion (c : Clock) (v : Version) : Version := { v with created := c.time v.created, state := byKey v.state }

theorem badDMap_tree (m : DMap) : badDMap (dmapTree m) = false := by
  unfold dmapTree badDMap
  simp only [List.any_map, List.any_eq_false, Function.comp_def, badStrs]
  intro e _
  simp

theorem read_versionTree {c : Clock} {v : Version} (hc : c.ok (c.time v.created) = true) (h : (mkeys v.state).Nodup) :
    readVersion c (versionTree c v) = (keptVersion c v, {}) := by
  unfold versionTree readVersion
  simp only [List.foldl_cons, List.foldl_nil, unesc_escStr]
  have e1 : ∀ x s, c.ok s = true → readVersionField c x "created".toList (.str (escStr s)) = ({ x.1 with created := s }, { x.2 with createdNil := false }) := by
    intro x s hs
    unfold readVersionField
    rw [if_pos (by decide)]
    simp only [unesc_escStr, hs, if_true]
  have e2 : ∀ x s, readVersionField c x "message".toList (.str (escStr s)) = ({ x.1 with message := s }, { x.2 with messageNil := false }) := by
    intro x s
    unfold readVersionField
    rw [if_neg (by decide), if_pos (by decide)]
    simp only [unesc_escStr]
  have e3 : ∀ x, readVersionField c x "state".toList (dmapTree v.state) =
      ({ x.1 with state := byKey v.state }, { x.2 with stateNil := false, stateErr := x.2.stateErr || false }) := by
    intro x
    unfold readVersionField
    rw [if_neg (by decide), if_neg (by decide), if_pos (by decide)]
    have hb := badDMap_tree v.state
    have hr := read_dmapTree h
    unfold dmapTree at hb hr ⊢
    simp only [hb, hr]
  have e4 : ∀ x, readVersionField c x "user".toList
      (.obj [(escStr "address".toList, .str (escStr v.userAddress)), (escStr "name".toList, .str (escStr v.userName))]) =
      ({ x.1 with userAddress := v.userAddress, userName := v.userName }, { x.2 with userNil := false, addrErr := false, nameErr := false }) := by
    intro x
    unfold readVersionField
    rw [if_neg (by decide), if_neg (by decide), if_neg (by decide), if_pos (by decide)]
    have : readUser [(escStr "address".toList, .str (escStr v.userAddress)), (escStr "name".toList, .str (escStr v.userName))] =
        ((v.userAddress, false), (v.userName, false)) := by
      unfold readUser
      simp only [List.foldl_cons, List.foldl_nil, unesc_escStr]
      rw [if_neg (by decide), if_pos (by decide), if_pos (by decide)]
    simp only [this]
  rw [e1 _ _ hc, e2, e3, e4]
  rfl

/-- an inventory as it is read back: the maps sorted, the time stamps without fractions -/
def keptInv (c : Clock) (inv : Inv) : Inv :=
  { inv with
    manifest := byKey inv.manifest
    versions := (byKey inv.versions).map (fun e => (e.1, keptVersion c e.2))
    fixity := (byKey inv.fixity).map (fun e => (e.1, byKey e.2))
    fixityAlgs := [], paddingLength := 0, modified := false, writeable := false }

/-- the text of an inventory is read back -/
theorem invOfText_invText {c : Clock} {inv : Inv} (hc : ∀ t, c.ok (c.time t) = true) (hk : FixKeys inv)
    (hv : (mkeys inv.versions).Nodup) (hm : MapKeysOk inv) :
    invOfText c (invText c inv) = some { inv := keptInv c inv, vmeta := (byKey inv.versions).map (fun e => (e.1, {})) } := by
  have hver : readVersions c (.obj ((byKey inv.versions).map (fun e => (escStr e.1, versionTree c e.2)))) =
      (byKey inv.versions).map (fun e => (e.1, (keptVersion c e.2, ({} : VMeta)))) := by
    unfold readVersions
    simp only []
    rw [foldl_mset (fun e : Bytes × JV => unesc e.1) (fun e => readVersion c e.2)]
    · simp only [List.nil_append, List.map_map, Function.comp_def, unesc_escStr]
      refine List.map_congr_left ?_
      intro e he
      rw [read_versionTree (hc _) (hm e.1 e.2 ((byKey_perm _).mem_iff.1 he))]
    · simp only [mkeys, List.map_nil, List.nil_append, List.map_map, Function.comp_def, unesc_escStr]
      exact byKey_nodup hv
  have hfix : ∀ x : RawInv, x.inv.fixity = [] → (if inv.fixity = [] then [] else
      [(escStr "fixity".toList, JV.obj ((byKey inv.fixity).map (fun e => (escStr e.1, dmapTree e.2))))]).foldl
        (fun x e => readField c x (unesc e.1) e.2) x =
      { x with inv := { x.inv with fixity := (byKey inv.fixity).map (fun e => (e.1, byKey e.2)) } } := by
    intro x hx
    split
    · rename_i h0
      rw [h0]
      simp only [List.foldl_nil]
      rw [show byKey ([] : AMap Str DMap) = [] from rfl, List.map_nil, ← hx]
    · simp only [List.foldl_cons, List.foldl_nil, unesc_escStr]
      unfold readField
      rw [if_neg (by decide), if_neg (by decide), if_neg (by decide), if_neg (by decide), if_neg (by decide), if_neg (by decide),
        if_neg (by decide), if_pos (by decide)]
      simp only [hx]
      rw [foldl_mset (fun e : Bytes × JV => unesc e.1) (fun e => readDMap [] e.2)]
      · simp only [List.nil_append, List.map_map, Function.comp_def, unesc_escStr]
        congr 2
        refine List.map_congr_left ?_
        intro e he
        rw [read_dmapTree (hk.blocks e.1 e.2 ((byKey_perm _).mem_iff.1 he))]
      · simp only [mkeys, List.map_nil, List.nil_append, List.map_map, Function.comp_def, unesc_escStr]
        exact byKey_nodup hk.fixity
  have hcd : ∀ x : RawInv, x.inv.contentDirectory = [] → (if inv.contentDirectory = [] then [] else
      [(escStr "contentDirectory".toList, JV.str (escStr inv.contentDirectory))]).foldl
        (fun x e => readField c x (unesc e.1) e.2) x =
      { x with inv := { x.inv with contentDirectory := inv.contentDirectory } } := by
    intro x hx
    split
    · rename_i h0
      rw [h0]
      simp only [List.foldl_nil]
      rw [← hx]
    · simp only [List.foldl_cons, List.foldl_nil, unesc_escStr]
      unfold readField
      rw [if_neg (by decide), if_neg (by decide), if_neg (by decide), if_neg (by decide), if_pos (by decide)]
      simp only [strField, unesc_escStr]
  have e1 : ∀ x : RawInv, readField c x "id".toList (.str (escStr inv.id)) = { x with inv := { x.inv with id := inv.id } } := by
    intro x
    unfold readField
    rw [if_pos (by decide)]
    simp only [strField, unesc_escStr]
  have e2 : ∀ x : RawInv, readField c x "type".toList (.str (escStr inv.spec)) = { x with inv := { x.inv with spec := inv.spec } } := by
    intro x
    unfold readField
    rw [if_neg (by decide), if_pos (by decide)]
    simp only [strField, unesc_escStr]
  have e3 : ∀ x : RawInv, readField c x "digestAlgorithm".toList (.str (escStr inv.digestAlg)) =
      { x with inv := { x.inv with digestAlg := inv.digestAlg } } := by
    intro x
    unfold readField
    rw [if_neg (by decide), if_neg (by decide), if_pos (by decide)]
    simp only [strField, unesc_escStr]
  have e4 : ∀ x : RawInv, readField c x "head".toList (.str (escStr inv.head)) =
      { x with inv := { x.inv with head := inv.head }, headNil := false } := by
    intro x
    unfold readField
    rw [if_neg (by decide), if_neg (by decide), if_neg (by decide), if_pos (by decide)]
    simp only [unesc_escStr]
  have e5 : ∀ x : RawInv, readField c x "manifest".toList (dmapTree inv.manifest) =
      { x with inv := { x.inv with manifest := byKey inv.manifest }, manifestNil := false } := by
    intro x
    have hr := read_dmapTree hk.manifest
    unfold readField
    rw [if_neg (by decide), if_neg (by decide), if_neg (by decide), if_neg (by decide), if_neg (by decide), if_pos (by decide)]
    unfold dmapTree at hr ⊢
    simp only [hr]
  have e6 : ∀ x : RawInv, readField c x "versions".toList (.obj ((byKey inv.versions).map (fun e => (escStr e.1, versionTree c e.2)))) =
      { x with inv := { x.inv with versions := (byKey inv.versions).map (fun e => (e.1, keptVersion c e.2)) },
               vmeta := (byKey inv.versions).map (fun e => (e.1, {})), versionsNil := false } := by
    intro x
    unfold readField
    rw [if_neg (by decide), if_neg (by decide), if_neg (by decide), if_neg (by decide), if_neg (by decide), if_neg (by decide),
      if_pos (by decide)]
    simp only [hver, List.map_map, Function.comp_def]
  have ht : jsonType (.obj (invMembers c inv)) = some inv.spec := by
    unfold jsonType
    simp only []
    have : mget ((invMembers c inv).foldl (fun (a : AMap Str JV) e => mset a (unesc e.1) e.2) []) "type".toList =
        some (.str (escStr inv.spec)) := by
      unfold invMembers
      simp only [List.foldl_append, List.foldl_cons, List.foldl_nil, unesc_escStr]
      have hend : ∀ a : AMap Str JV, mget ((if inv.fixity = [] then [] else
          [(escStr "fixity".toList, JV.obj ((byKey inv.fixity).map (fun e => (escStr e.1, dmapTree e.2))))]).foldl
          (fun (a : AMap Str JV) e => mset a (unesc e.1) e.2) a) "type".toList = mget a "type".toList := by
        intro a
        split
        · rfl
        · simp only [List.foldl_cons, List.foldl_nil, unesc_escStr]
          rw [mget_mset_ne _ (by decide)]
      have hmid : ∀ a : AMap Str JV, mget ((if inv.contentDirectory = [] then [] else
          [(escStr "contentDirectory".toList, JV.str (escStr inv.contentDirectory))]).foldl
          (fun (a : AMap Str JV) e => mset a (unesc e.1) e.2) a) "type".toList = mget a "type".toList := by
        intro a
        split
        · rfl
        · simp only [List.foldl_cons, List.foldl_nil, unesc_escStr]
          rw [mget_mset_ne _ (by decide)]
      rw [hend, mget_mset_ne _ (by decide), mget_mset_ne _ (by decide), hmid, mget_mset_ne _ (by decide), mget_mset_ne _ (by decide),
        mget_mset_self]
    rw [this]
    simp only [unesc_escStr]
  unfold invOfText
  rw [(reads_inv c inv).parse]
  simp only [ht]
  unfold invMembers
  simp only [List.foldl_append, List.foldl_cons, List.foldl_nil, unesc_escStr]
  rw [e1, e2, e3, e4, hcd _ rfl, e5, e6, hfix _ rfl]
  rfl

/-! ## Parts of a text -/

/-- an object starts with a brace -/
theorem scanVal_obj {n : Nat} {b r : Bytes} {l : List (Bytes × JV)} (h : scanVal n b = some (.obj l, r)) : ∃ t, b = ch '{' :: t := by
  cases n with
  | zero => unfold scanVal at h; cases h
  | succ n =>
    cases b with
    | nil => unfold scanVal at h; cases h
    | cons a t =>
      unfold scanVal at h
      split at h
      · rename_i h1; exact ⟨t, by rw [h1]⟩
      · exfalso
        have hw : ∀ w v, (∀ l, v ≠ JV.obj l) → scanWord w v (a :: t) = some (.obj l, r) → False := by
          intro w v hv hs
          unfold scanWord at hs
          split at hs
          · cases hs; exact hv _ rfl
          · cases hs
        split at h
        · split at h
          · cases h
          · split at h
            · cases h
            · rw [Option.map_eq_some_iff] at h
              obtain ⟨y, _, hy⟩ := h; cases hy
        · split at h
          · rw [Option.map_eq_some_iff] at h
            obtain ⟨y, _, hy⟩ := h; cases hy
          · split at h
            · exact hw _ _ (fun _ => by simp) h
            · split at h
              · exact hw _ _ (fun _ => by simp) h
              · split at h
                · exact hw _ _ (fun _ => by simp) h
                · unfold scanNum at h
                  split at h
                  · cases h
                  · cases h

/-- what starts with a brace is an object -/
theorem scanVal_brace {n : Nat} {t r : Bytes} {v : JV} (h : scanVal n (ch '{' :: t) = some (v, r)) : ∃ l, v = .obj l := by
  cases n with
  | zero => unfold scanVal at h; cases h
  | succ n =>
    unfold scanVal at h
    rw [if_pos rfl] at h
    split at h
    · cases h
    · split at h
      · cases h; exact ⟨_, rfl⟩
      · rw [Option.map_eq_some_iff] at h
        obtain ⟨y, _, hy⟩ := h
        cases hy; exact ⟨_, rfl⟩

theorem skipWs_nil_iff (b : Bytes) : skipWs b = [] ↔ ∀ x ∈ b, isWs x = true := by
  unfold skipWs
  induction b with
  | nil => simp
  | cons a t ih =>
    rw [List.dropWhile_cons]
    split
    · rename_i h; rw [ih]; simp [h]
    · rename_i h; simp [h]

theorem skipWs_of_nil {b : Bytes} (h : skipWs b = []) (q : Bytes) : skipWs (b ++ q) = skipWs q := by
  rw [skipWs_nil_iff] at h
  induction b with
  | nil => rfl
  | cons a t ih =>
    have := ih (fun x hx => h x (by simp [hx]))
    unfold skipWs at this ⊢
    rw [List.cons_append, List.dropWhile_cons, if_pos (h a (by simp)), this]

/-- If a text and a beginning of it are both JSON and the text is an object, then only white space is missing. -/
theorem parse_part {b1 b2 : Bytes} {l : List (Bytes × JV)} {v : JV} (h : parseJson (b1 ++ b2) = some (.obj l))
    (h1 : parseJson b1 = some v) : v = .obj l ∧ skipWs b2 = [] := by
  unfold parseJson at h h1
  split at h1
  · cases h1
  rename_i v' r1 hs1
  split at h1
  rotate_left
  · cases h1
  rename_i hr1
  cases h1
  split at h
  · cases h
  rename_i v' r hs
  split at h
  rotate_left
  · cases h
  rename_i hr
  cases h
  obtain ⟨t, ht⟩ := scanVal_obj hs
  cases hb : skipWs b1 with
  | nil =>
    rw [hb] at hs1
    cases hlen : b1.length with
    | zero => rw [hlen] at hs1; unfold scanVal at hs1; cases hs1
    | succ n => rw [hlen] at hs1; unfold scanVal at hs1; cases hs1
  | cons a t1 =>
    have ha := skipWs_append hb b2
    rw [ht] at ha
    obtain ⟨rfl, rfl⟩ := List.cons.inj ha
    rw [hb] at hs1
    obtain ⟨l', rfl⟩ := scanVal_brace hs1
    have := (scan_append b1.length).1 _ _ _ hs1 (Or.inr (by intro x hx; cases hx)) (b1 ++ b2).length b2 (by simp)
    rw [List.cons_append, ← ht, hs] at this
    cases this
    refine ⟨rfl, ?_⟩
    rwa [skipWs_of_nil hr1] at hr

end Gocfl
