import Verif.Model.MetaJson
import Verif.Props.OneObject

/-! # C158, C159: the document `extractmeta` writes -/

namespace Gocfl

/-! ## Looking things up in a document -/

/-- the member of an object with this name; the last one, as readers take it -/
def jget (v : JV) (k : Str) : Option JV :=
  match v with
  | .obj l => (l.reverse.find? (fun e => decide (unesc e.1 = k))).map (fun e => e.2)
  | _ => none

/-- the value at a path of names -/
def jpath (v : JV) : List Str → Option JV
  | [] => some v
  | k :: ks => (jget v k).bind (fun x => jpath x ks)

/-- the text at a path -/
def jtext (v : JV) (ks : List Str) : Option Str :=
  (jpath v ks).bind (fun x => match x with
    | .str raw => some (unesc raw)
    | _ => none)

/-- the texts of the list at a path -/
def jtexts (v : JV) (ks : List Str) : Option (List Str) :=
  (jpath v ks).bind (fun x => match x with
    | .arr l => l.mapM (fun y => match y with
      | .str raw => some (unesc raw)
      | _ => none)
    | _ => none)

/-- an object with these members -/
def objTree (l : List (Str × JV)) : JV := .obj (l.map (fun e => (escStr e.1, e.2)))

theorem jget_objTree {l : List (Str × JV)} (hn : (mkeys l).Nodup) (k : Str) : jget (objTree l) k = mget l k := by
  have hn' : (mkeys l.reverse).Nodup := by
    unfold mkeys at hn ⊢
    rw [List.map_reverse]; exact List.nodup_reverse.2 hn
  rw [mget_perm (List.reverse_perm l).symm hn k]
  unfold jget objTree
  simp only
  rw [← List.map_reverse]
  generalize l.reverse = r at *
  clear hn hn'
  induction r with
  | nil => rfl
  | cons e r ih =>
    simp only [List.map_cons, List.find?_cons, unesc_escStr, mget]
    by_cases h : e.1 = k
    · simp [h]
    · simp only [h, decide_false]
      exact ih

/-- an object made of a map -/
def mapTree {V : Type} (f : V → JV) (m : AMap Str V) : JV := objTree ((byKey m).map (fun e => (e.1, f e.2)))

theorem jget_mapTree {V : Type} {f : V → JV} {m : AMap Str V} (hn : (mkeys m).Nodup) (k : Str) :
    jget (mapTree f m) k = (mget m k).map f := by
  have hk : (mkeys ((byKey m).map (fun e => (e.1, f e.2)))).Nodup := by
    have := byKey_nodup hn
    unfold mkeys at this ⊢
    rw [List.map_map]
    exact this
  unfold mapTree
  rw [jget_objTree hk, mget_mapKV, mget_perm (byKey_perm m) (byKey_nodup hn)]

/-- the text of a map is that of its tree -/
theorem reads_map {V : Type} {f : V → JV} {g : V → Bytes} (d : Nat) (m : AMap Str V) (h : ∀ v, Reads (g v) (f v)) :
    Reads (objText d ((byKey m).map (fun e => (e.1, g e.2)))) (mapTree f m) := by
  unfold mapTree objTree
  rw [List.map_map]
  exact reads_obj d (forall2_map _ (fun e => ⟨rfl, h e.2⟩))

theorem reads_objTree (d : Nat) {l : List (Str × Bytes)} {t : List (Str × JV)}
    (h : List.Forall₂ (fun a b => a.1 = b.1 ∧ Reads a.2 b.2) l t) : Reads (objText d l) (objTree t) := by
  unfold objTree
  refine reads_obj d ?_
  induction h with
  | nil => exact .nil
  | cons h _ ih => exact .cons ⟨by rw [h.1], h.2⟩ ih

theorem reads_null : Reads ("null".toList.map ch) .null where
  start := ⟨_, _, rfl, by decide, by decide, by decide⟩
  scan n r h := by
    cases n with
    | zero => exact absurd h (by decide)
    | succ n => rfl

/-- the list of texts -/
def strsTree (l : List Str) : JV := .arr (l.map (fun s => .str (escStr s)))

theorem reads_strs (d : Nat) (l : List Str) : Reads (arrText d (l.map qStr)) (strsTree l) :=
  reads_arr d (forall2_map l (fun s => reads_qStr s))

theorem jtexts_strs (l : List Str) : jtexts (strsTree l) [] = some l := by
  show (l.map (fun s => JV.str (escStr s))).mapM _ = _
  induction l with
  | nil => rfl
  | cons s l ih =>
    rw [List.map_cons, List.mapM_cons, ih]
    simp [unesc_escStr]

/-! ## The trees that are meant -/

section
variable {V : Type}

def versionMetaTree (c : Clock) (v : VersionMeta) : JV :=
  objTree [("Created".toList, .str (escStr (c.time v.created))), ("Message".toList, .str (escStr v.message)),
    ("Name".toList, .str (escStr v.name)), ("Address".toList, .str (escStr v.address))]

def fileMetaTree (vr : V → JV) (f : FileMeta V) : JV :=
  objTree [("Checksums".toList, mapTree (fun s => .str (escStr s)) f.checksums), ("InternalName".toList, strsTree f.internal),
    ("VersionName".toList, mapTree strsTree f.versionName), ("Extension".toList, mapTree vr f.ext)]

def objMetaTree (c : Clock) (vr : V → JV) (m : ObjMeta V) : JV :=
  objTree [("ID".toList, .str (escStr m.id)), ("DigestAlgorithm".toList, .str (escStr m.alg)), ("Head".toList, .str (escStr m.head)),
    ("Versions".toList, mapTree (versionMetaTree c) m.versions), ("Files".toList, mapTree (fileMetaTree vr) m.files),
    ("Extension".toList, match m.ext with
      | none => .null
      | some x => mapTree vr x)]

def metaTree (c : Clock) (vr : V → JV) (M : AMap Str (ObjMeta V)) : JV :=
  objTree [("Objects".toList, mapTree (objMetaTree c vr) M)]

theorem reads_meta {c : Clock} {vt : V → Nat → Bytes} {vr : V → JV} (hv : ∀ v d, Reads (vt v d) (vr v)) (M : AMap Str (ObjMeta V)) :
    Reads (metaText c vt M) (metaTree c vr M) := by
  have hany : ∀ d m, Reads (anyText vt d m) (mapTree vr m) := fun d m => reads_map d m (fun v => hv v (d + 1))
  have hver : ∀ d v, Reads (versionMetaText c d v) (versionMetaTree c v) := fun d v =>
    reads_objTree d (.cons ⟨rfl, reads_qStr _⟩ (.cons ⟨rfl, reads_qStr _⟩ (.cons ⟨rfl, reads_qStr _⟩ (.cons ⟨rfl, reads_qStr _⟩ .nil))))
  have hfile : ∀ d f, Reads (fileMetaText vt d f) (fileMetaTree vr f) := fun d f =>
    reads_objTree d (.cons ⟨rfl, reads_map _ _ (fun s => reads_qStr s)⟩ (.cons ⟨rfl, reads_strs _ _⟩
      (.cons ⟨rfl, reads_map _ _ (fun l => reads_strs _ l)⟩ (.cons ⟨rfl, hany _ _⟩ .nil))))
  have hobj : ∀ d m, Reads (objMetaText c vt d m) (objMetaTree c vr m) := fun d m =>
    reads_objTree d (.cons ⟨rfl, reads_qStr _⟩ (.cons ⟨rfl, reads_qStr _⟩ (.cons ⟨rfl, reads_qStr _⟩
      (.cons ⟨rfl, reads_map _ _ (hver _)⟩ (.cons ⟨rfl, reads_map _ _ (hfile _)⟩ (.cons ⟨rfl, by
        cases m.ext with
        | none => exact reads_null
        | some x => exact hany _ _⟩ .nil))))))
  exact reads_objTree 0 (.cons ⟨rfl, reads_map _ _ (hobj _)⟩ .nil)

/-! ## C158 -/

/-- the maps of the metadata of an object have each key once -/
structure MetaMaps (m : ObjMeta V) : Prop where
  versions : (mkeys m.versions).Nodup
  files : (mkeys m.files).Nodup
  checksums : ∀ d f, mget m.files d = some f → (mkeys f.checksums).Nodup
  names : ∀ d f, mget m.files d = some f → (mkeys f.versionName).Nodup
  fileExt : ∀ d f, mget m.files d = some f → (mkeys f.ext).Nodup
  ext : ∀ x, m.ext = some x → (mkeys x).Nodup

/-- The value describes the object: every datum is found at its place, nothing else is in the maps. -/
structure DescribesObj (c : Clock) (vr : V → JV) (o : JV) (m : ObjMeta V) : Prop where
  id : jtext o ["ID".toList] = some m.id
  alg : jtext o ["DigestAlgorithm".toList] = some m.alg
  head : jtext o ["Head".toList] = some m.head
  noVersion : ∀ v, mget m.versions v = none → jpath o ["Versions".toList, v] = none
  version : ∀ v x, mget m.versions v = some x →
    jtext o ["Versions".toList, v, "Created".toList] = some (c.time x.created) ∧
    jtext o ["Versions".toList, v, "Message".toList] = some x.message ∧
    jtext o ["Versions".toList, v, "Name".toList] = some x.name ∧
    jtext o ["Versions".toList, v, "Address".toList] = some x.address
  noFile : ∀ d, mget m.files d = none → jpath o ["Files".toList, d] = none
  file : ∀ d f, mget m.files d = some f →
    (∀ a, jtext o ["Files".toList, d, "Checksums".toList, a] = mget f.checksums a) ∧
    jtexts o ["Files".toList, d, "InternalName".toList] = some f.internal ∧
    (∀ v, jtexts o ["Files".toList, d, "VersionName".toList, v] = mget f.versionName v) ∧
    ∀ e, jpath o ["Files".toList, d, "Extension".toList, e] = (mget f.ext e).map vr
  ext : ∀ e, jpath o ["Extension".toList, e] = (m.ext.bind (fun x => mget x e)).map vr

/-- The document describes the objects, each under its id, and no others. -/
def DocDescribes (c : Clock) (vr : V → JV) (doc : JV) (M : AMap Str (ObjMeta V)) : Prop :=
  ∀ id, match mget M id with
    | none => jpath doc ["Objects".toList, id] = none
    | some m => ∃ o, jpath doc ["Objects".toList, id] = some o ∧ DescribesObj c vr o m

theorem jpath_cons {v x : JV} {k : Str} {ks : List Str} (h : jget v k = some x) : jpath v (k :: ks) = jpath x ks := by
  rw [jpath, h]; rfl

theorem jtext_cons {v x : JV} {k : Str} {ks : List Str} (h : jget v k = some x) : jtext v (k :: ks) = jtext x ks := by
  unfold jtext; rw [jpath_cons h]

theorem jtexts_cons {v x : JV} {k : Str} {ks : List Str} (h : jget v k = some x) : jtexts v (k :: ks) = jtexts x ks := by
  unfold jtexts; rw [jpath_cons h]

theorem jpath_none {v : JV} {k : Str} {ks : List Str} (h : jget v k = none) : jpath v (k :: ks) = none := by
  rw [jpath, h]; rfl

theorem jtext_str (s : Str) : jtext (.str (escStr s)) [] = some s := by
  show some (unesc (escStr s)) = _
  rw [unesc_escStr]

theorem jtext_field {v : JV} {k s : Str} (h : jget v k = some (.str (escStr s))) : jtext v [k] = some s := by
  rw [jtext_cons h, jtext_str]

theorem describes_version (c : Clock) (x : VersionMeta) :
    jtext (versionMetaTree c x) ["Created".toList] = some (c.time x.created) ∧
    jtext (versionMetaTree c x) ["Message".toList] = some x.message ∧
    jtext (versionMetaTree c x) ["Name".toList] = some x.name ∧ jtext (versionMetaTree c x) ["Address".toList] = some x.address := by
  have hk : ∀ a b c d : JV, (mkeys [("Created".toList, a), ("Message".toList, b), ("Name".toList, c), ("Address".toList, d)]).Nodup := by
    intro a b c d; show (["Created".toList, "Message".toList, "Name".toList, "Address".toList]).Nodup; decide
  refine ⟨?_, ?_, ?_, ?_⟩ <;>
  · exact jtext_field ((jget_objTree (hk _ _ _ _) _).trans rfl)

theorem describes_obj {c : Clock} {vr : V → JV} {m : ObjMeta V} (h : MetaMaps m) : DescribesObj c vr (objMetaTree c vr m) m := by
  have hk : ∀ a b c d e f : JV, (mkeys [("ID".toList, a), ("DigestAlgorithm".toList, b), ("Head".toList, c), ("Versions".toList, d),
      ("Files".toList, e), ("Extension".toList, f)]).Nodup := by
    intro a b c d e f
    show (["ID".toList, "DigestAlgorithm".toList, "Head".toList, "Versions".toList, "Files".toList, "Extension".toList]).Nodup
    decide
  have hkf : ∀ a b c d : JV, (mkeys [("Checksums".toList, a), ("InternalName".toList, b), ("VersionName".toList, c),
      ("Extension".toList, d)]).Nodup := by
    intro a b c d
    show (["Checksums".toList, "InternalName".toList, "VersionName".toList, "Extension".toList]).Nodup
    decide
  have hvers : jget (objMetaTree c vr m) "Versions".toList = some (mapTree (versionMetaTree c) m.versions) :=
    (jget_objTree (hk _ _ _ _ _ _) _).trans rfl
  have hfiles : jget (objMetaTree c vr m) "Files".toList = some (mapTree (fileMetaTree vr) m.files) :=
    (jget_objTree (hk _ _ _ _ _ _) _).trans rfl
  constructor
  · exact jtext_field ((jget_objTree (hk _ _ _ _ _ _) _).trans rfl)
  · exact jtext_field ((jget_objTree (hk _ _ _ _ _ _) _).trans rfl)
  · exact jtext_field ((jget_objTree (hk _ _ _ _ _ _) _).trans rfl)
  · intro v hv
    rw [jpath_cons hvers, jpath_none (by rw [jget_mapTree h.versions, hv]; rfl)]
  · intro v x hv
    have hx : jget (mapTree (versionMetaTree c) m.versions) v = some (versionMetaTree c x) := by
      rw [jget_mapTree h.versions, hv]; rfl
    simp only [jtext_cons hvers, jtext_cons hx]
    exact describes_version c x
  · intro d hd
    rw [jpath_cons hfiles, jpath_none (by rw [jget_mapTree h.files, hd]; rfl)]
  · intro d f hf
    have hx : jget (mapTree (fileMetaTree vr) m.files) d = some (fileMetaTree vr f) := by
      rw [jget_mapTree h.files, hf]; rfl
    have h1 : jget (fileMetaTree vr f) "Checksums".toList = some (mapTree (fun s => .str (escStr s)) f.checksums) :=
      (jget_objTree (hkf _ _ _ _) _).trans rfl
    have h2 : jget (fileMetaTree vr f) "InternalName".toList = some (strsTree f.internal) := (jget_objTree (hkf _ _ _ _) _).trans rfl
    have h3 : jget (fileMetaTree vr f) "VersionName".toList = some (mapTree strsTree f.versionName) :=
      (jget_objTree (hkf _ _ _ _) _).trans rfl
    have h4 : jget (fileMetaTree vr f) "Extension".toList = some (mapTree vr f.ext) := (jget_objTree (hkf _ _ _ _) _).trans rfl
    refine ⟨?_, ?_, ?_, ?_⟩
    · intro a
      rw [jtext_cons hfiles, jtext_cons hx, jtext_cons h1]
      cases ha : mget f.checksums a with
      | none => unfold jtext; rw [jpath_none (by rw [jget_mapTree (h.checksums d f hf), ha]; rfl)]; rfl
      | some s => rw [jtext_cons (x := JV.str (escStr s)) (by rw [jget_mapTree (h.checksums d f hf), ha]; rfl), jtext_str]
    · rw [jtexts_cons hfiles, jtexts_cons hx, jtexts_cons h2, jtexts_strs]
    · intro v
      rw [jtexts_cons hfiles, jtexts_cons hx, jtexts_cons h3]
      cases hv : mget f.versionName v with
      | none => unfold jtexts; rw [jpath_none (by rw [jget_mapTree (h.names d f hf), hv]; rfl)]; rfl
      | some l => rw [jtexts_cons (x := strsTree l) (by rw [jget_mapTree (h.names d f hf), hv]; rfl), jtexts_strs]
    · intro e
      rw [jpath_cons hfiles, jpath_cons hx, jpath_cons h4, jpath, jget_mapTree (h.fileExt d f hf)]
      cases mget f.ext e <;> rfl
  · intro e
    have hext : jget (objMetaTree c vr m) "Extension".toList = some (match m.ext with
      | none => .null
      | some x => mapTree vr x) := (jget_objTree (hk _ _ _ _ _ _) _).trans rfl
    rw [jpath_cons hext]
    cases hx : m.ext with
    | none => rfl
    | some x =>
      show jpath (mapTree vr x) [e] = _
      rw [jpath, jget_mapTree (h.ext x hx)]
      show _ = (mget x e).map vr
      cases mget x e <;> rfl

/-- What is written reads back as a document that describes the metadata. -/
theorem metaText_describes {c : Clock} {vt : V → Nat → Bytes} {vr : V → JV} (hv : ∀ v d, Reads (vt v d) (vr v))
    {M : AMap Str (ObjMeta V)} (hM : (mkeys M).Nodup) (hm : ∀ id m, mget M id = some m → MetaMaps m) :
    ∃ doc, parseJson (metaText c vt M) = some doc ∧ DocDescribes c vr doc M := by
  refine ⟨metaTree c vr M, (reads_meta hv M).parse, ?_⟩
  have hobj : jget (metaTree c vr M) "Objects".toList = some (mapTree (objMetaTree c vr) M) :=
    (jget_objTree (by show (["Objects".toList]).Nodup; decide) _).trans rfl
  intro id
  cases hi : mget M id with
  | none =>
    show jpath _ _ = none
    rw [jpath_cons hobj, jpath_none (by rw [jget_mapTree hM, hi]; rfl)]
  | some m =>
    refine ⟨objMetaTree c vr m, ?_, describes_obj (hm id m hi)⟩
    rw [jpath_cons hobj, jpath_cons (x := objMetaTree c vr m) (by rw [jget_mapTree hM, hi]; rfl)]
    rfl

theorem mkeys_filterMapKV {K A B : Type} [DecidableEq K] {l : AMap K A} (hn : (mkeys l).Nodup) (f : K × A → Option (K × B))
    (hf : ∀ e y, f e = some y → y.1 = e.1) : (mkeys (l.filterMap f)).Nodup := by
  have : (mkeys (l.filterMap f)).Sublist (mkeys l) := by
    unfold mkeys
    clear hn
    induction l with
    | nil => exact .slnil
    | cons e l ih =>
      rw [List.filterMap_cons]
      cases he : f e with
      | none => exact ih.cons _
      | some y =>
        rw [List.map_cons, List.map_cons, hf e y he]
        exact ih.cons_cons _
  exact this.nodup hn

theorem mergeMeta_keys {exts : List (Str × Res (AMap Str V))} {acc em : AMap Str (AMap Str V)} (h : mergeMeta exts acc = .ok em)
    (ha : ∀ k x, mget acc k = some x → (mkeys x).Nodup) : ∀ k x, mget em k = some x → (mkeys x).Nodup := by
  induction exts generalizing acc with
  | nil => cases h; exact ha
  | cons e exts ih =>
    obtain ⟨name, r⟩ := e
    cases r with
    | error e => cases h
    | ok m =>
      refine ih h ?_
      clear h ih
      induction m generalizing acc with
      | nil => exact ha
      | cons y m ihm =>
        rw [List.foldl_cons]
        refine ihm ?_
        intro k x hk
        rw [mget_mset] at hk
        split at hk
        · cases hk
          refine mkeys_mset_nodup ?_ _ _
          cases hy : mget acc y.1 with
          | none => exact List.nodup_nil
          | some z => exact ha _ _ hy
        · exact ha k x hk

/-- the maps of an inventory have each key once -/
def InvMaps (inv : Inv) : Prop := FixKeys inv ∧ (mkeys inv.versions).Nodup ∧ MapKeysOk inv

/-- what is read from files has maps with each key once -/
def DecMaps (w : World) : Prop := ∀ b r, w.dec b = some r → InvMaps r.inv

theorem foldl_mset_nodup {α A : Type} (key : α → Str) (val : α → A) (l : List α) (a : AMap Str A) (h : (mkeys a).Nodup) :
    (mkeys (l.foldl (fun a e => mset a (key e) (val e)) a)).Nodup := by
  induction l generalizing a with
  | nil => exact h
  | cons e l ih => exact ih _ (mkeys_mset_nodup h _ _)

theorem foldl_mset_values {α A : Type} (key : α → Str) (val : α → A) (P : A → Prop) (l : List α) (a : AMap Str A) (hn : (mkeys a).Nodup)
    (h : ∀ k x, (k, x) ∈ a → P x) (hv : ∀ e ∈ l, P (val e)) : ∀ k x, (k, x) ∈ l.foldl (fun a e => mset a (key e) (val e)) a → P x := by
  induction l generalizing a with
  | nil => exact h
  | cons e l ih =>
    refine ih _ (mkeys_mset_nodup hn _ _) ?_ (fun e' he' => hv e' (List.mem_cons_of_mem _ he'))
    intro k x hx
    rcases (mem_mset_iff hn).1 hx with hx | ⟨_, hx⟩
    · rw [(Prod.mk.inj hx).2]; exact hv e (by simp)
    · exact h k x hx

theorem readDMap_nodup {m : DMap} (h : (mkeys m).Nodup) (v : JV) : (mkeys (readDMap m v)).Nodup := by
  cases v with
  | obj l => exact foldl_mset_nodup (fun e => unesc e.1) (fun e => readStrs e.2) l m h
  | _ => exact h

theorem readVersion_nodup (c : Clock) (v : JV) : (mkeys (readVersion c v).1.state).Nodup := by
  have key : ∀ (l : List (Bytes × JV)) (x : Version × VMeta), (mkeys x.1.state).Nodup →
      (mkeys (l.foldl (fun x e => readVersionField c x (unesc e.1) e.2) x).1.state).Nodup := by
    intro l
    induction l with
    | nil => exact fun x h => h
    | cons e l ih =>
      intro x h
      refine ih _ ?_
      show (mkeys (readVersionField c x (unesc e.1) e.2).1.state).Nodup
      unfold readVersionField
      by_cases h1 : isField "created".toList (unesc e.1)
      · rw [if_pos h1]
        cases e.2 with
        | str raw => simp only; split <;> exact h
        | _ => exact h
      rw [if_neg h1]
      by_cases h2 : isField "message".toList (unesc e.1)
      · rw [if_pos h2]; cases e.2 <;> exact h
      rw [if_neg h2]
      by_cases h3 : isField "state".toList (unesc e.1)
      · rw [if_pos h3]
        cases e.2 with
        | null => exact List.nodup_nil
        | _ => simp only; exact readDMap_nodup (m := []) List.nodup_nil _
      rw [if_neg h3]
      by_cases h4 : isField "user".toList (unesc e.1)
      · rw [if_pos h4]; cases e.2 <;> exact h
      rw [if_neg h4]
      exact h
  cases v with
  | obj l => exact key l _ List.nodup_nil
  | _ => exact List.nodup_nil

theorem InvMaps.congr {a b : Inv} (h : InvMaps a) (hm : b.manifest = a.manifest) (hv : b.versions = a.versions) (hf : b.fixity = a.fixity) :
    InvMaps b := by
  refine ⟨h.1.congr hm hf, by rw [hv]; exact h.2.1, ?_⟩
  intro v ver hx
  rw [hv] at hx
  exact h.2.2 v ver hx

theorem readField_maps (c : Clock) {x : RawInv} (k : Str) (v : JV) (h : InvMaps x.inv) : InvMaps (readField c x k v).inv := by
  unfold readField
  by_cases h1 : isField "id".toList k
  · rw [if_pos h1]; exact h.congr rfl rfl rfl
  rw [if_neg h1]
  by_cases h2 : isField "type".toList k
  · rw [if_pos h2]; exact h.congr rfl rfl rfl
  rw [if_neg h2]
  by_cases h3 : isField "digestAlgorithm".toList k
  · rw [if_pos h3]; exact h.congr rfl rfl rfl
  rw [if_neg h3]
  by_cases h4 : isField "head".toList k
  · rw [if_pos h4]; cases v <;> exact h.congr rfl rfl rfl
  rw [if_neg h4]
  by_cases h5 : isField "contentDirectory".toList k
  · rw [if_pos h5]; exact h.congr rfl rfl rfl
  rw [if_neg h5]
  by_cases h6 : isField "manifest".toList k
  · rw [if_pos h6]
    have hd : ∀ m : DMap, (mkeys m).Nodup → InvMaps { x.inv with manifest := m } := fun m hm =>
      ⟨⟨hm, h.1.fixity, h.1.blocks⟩, h.2⟩
    cases v with
    | null => exact hd [] List.nodup_nil
    | _ => exact hd _ (readDMap_nodup (m := []) List.nodup_nil _)
  rw [if_neg h6]
  by_cases h7 : isField "versions".toList k
  · rw [if_pos h7]
    have hd : ∀ vs : AMap Str Version, (mkeys vs).Nodup → (∀ k ver, (k, ver) ∈ vs → (mkeys ver.state).Nodup) →
        InvMaps { x.inv with versions := vs } := fun vs hm hk => ⟨⟨h.1.manifest, h.1.fixity, h.1.blocks⟩, hm, hk⟩
    have hr : (mkeys ((readVersions c v).map (fun e => (e.1, e.2.1)))).Nodup ∧
        ∀ k ver, (k, ver) ∈ (readVersions c v).map (fun e => (e.1, e.2.1)) → (mkeys ver.state).Nodup := by
      constructor
      · unfold mkeys
        rw [List.map_map]
        show (mkeys (readVersions c v)).Nodup
        cases v with
        | obj l => exact foldl_mset_nodup (fun e => unesc e.1) (fun e => readVersion c e.2) l [] List.nodup_nil
        | _ => exact List.nodup_nil
      · intro k ver hk
        obtain ⟨e, he, hx⟩ := List.mem_map.1 hk
        cases hx
        cases v with
        | obj l =>
          exact foldl_mset_values (α := Bytes × JV) (fun e => unesc e.1) (fun e => readVersion c e.2) (fun y => (mkeys y.1.state).Nodup) l [] List.nodup_nil
            (fun _ _ hx => by cases hx) (fun e _ => readVersion_nodup c e.2) e.1 e.2 he
        | _ => cases he
    cases v with
    | null => exact hd [] List.nodup_nil (fun _ _ hx => by cases hx)
    | _ => exact hd _ hr.1 hr.2
  rw [if_neg h7]
  by_cases h8 : isField "fixity".toList k
  · rw [if_pos h8]
    cases v with
    | null => exact ⟨⟨h.1.manifest, List.nodup_nil, fun _ _ hx => by cases hx⟩, h.2⟩
    | obj l =>
      refine ⟨⟨h.1.manifest, foldl_mset_nodup (fun e => unesc e.1) (fun e => readDMap [] e.2) l _ h.1.fixity, ?_⟩, h.2⟩
      exact foldl_mset_values (fun e => unesc e.1) (fun e => readDMap [] e.2) (fun m => (mkeys m).Nodup) l _ h.1.fixity h.1.blocks
        (fun e _ => readDMap_nodup (m := []) List.nodup_nil e.2)
    | _ => exact h.congr rfl rfl rfl
  rw [if_neg h8]
  exact h.congr rfl rfl rfl

/-- inventories read from JSON text are such -/
theorem decMaps_json (w : World) (c : Clock) : DecMaps (jsonWorld w c) := by
  intro b r h
  have h : invOfText c b = some r := h
  unfold invOfText at h
  have key : ∀ (l : List (Bytes × JV)) (x : RawInv), InvMaps x.inv → InvMaps (l.foldl (fun x e => readField c x (unesc e.1) e.2) x).inv := by
    intro l
    induction l with
    | nil => exact fun x hx => hx
    | cons e l ih => exact fun x hx => ih _ (readField_maps c _ _ hx)
  cases hp : parseJson b with
  | none => rw [hp] at h; cases h
  | some v =>
    rw [hp] at h
    simp only at h
    cases ht : jsonType v with
    | none => rw [ht] at h; cases h
    | some t =>
      rw [ht] at h
      cases v with
      | obj l =>
        cases h
        refine key l _ ⟨⟨List.nodup_nil, List.nodup_nil, fun _ _ hx => by cases hx⟩, List.nodup_nil, fun _ _ hx => by cases hx⟩
      | _ => cases h

/-- the objects that are opened have such inventories -/
theorem loadByFolder_maps {w : World} {env : Env} {plain : Bool} {blank : Inv} {fs : FS} (hw : DecMaps w) (hb : InvMaps blank)
    {folder : Str} {r : Inv × List Fnd} (h : loadByFolder w env plain blank fs folder = .ok r) : InvMaps r.1 := by
  unfold loadByFolder at h
  split at h
  · unfold loadInventory at h
    split at h
    · split at h
      · cases h
      · cases h; exact hb
    · obtain ⟨b, raw, x, g, h1, h2, h3, _, h5, _⟩ := loadRoot_ok (i := r.1) (f := r.2) h
      rw [h5, finalize_inv h3]
      exact (hw b raw h2).congr rfl rfl rfl
  · cases h

theorem objMetadata_maps {inv : Inv} (hi : InvMaps inv) {exts : List (Str × Res (AMap Str V))} {m : ObjMeta V}
    (h : objMetadata inv exts = .ok m) : MetaMaps m := by
  obtain ⟨em, he, rfl⟩ := objMetadata_ok h
  have hem := mergeMeta_keys he (fun k x hx => by cases hx)
  have hfile : ∀ d f, mget (inv.manifest.filterMap (fun e => if e.2 = [] then none else some (e.1, fileMeta inv em e.1 e.2))) d = some f →
      ∃ ps, f = fileMeta inv em d ps := by
    intro d f hf
    rw [mget_metaFiles hi.1.manifest] at hf
    cases hp : mget inv.manifest d with
    | none => rw [hp] at hf; cases hf
    | some ps =>
      rw [hp] at hf
      simp only [Option.bind_some] at hf
      split at hf
      · cases hf
      · cases hf; exact ⟨ps, rfl⟩
  constructor
  · show (mkeys (inv.versions.map _)).Nodup
    unfold mkeys
    rw [List.map_map]
    exact hi.2.1
  · refine mkeys_filterMapKV hi.1.manifest _ ?_
    intro e y hy
    split at hy
    · cases hy
    · cases hy; rfl
  · intro d f hf
    obtain ⟨ps, rfl⟩ := hfile d f hf
    cases ps with
    | nil => exact List.nodup_nil
    | cons p ps =>
      refine mkeys_filterMapKV hi.1.fixity _ ?_
      intro e y hy
      obtain ⟨z, _, rfl⟩ := Option.map_eq_some_iff.1 hy
      rfl
  · intro d f hf
    obtain ⟨ps, rfl⟩ := hfile d f hf
    refine mkeys_filterMapKV hi.2.1 _ ?_
    intro e y hy
    obtain ⟨z, _, rfl⟩ := Option.map_eq_some_iff.1 hy
    rfl
  · intro d f hf
    obtain ⟨ps, rfl⟩ := hfile d f hf
    show (mkeys ((mget em d).getD [])).Nodup
    cases hd : mget em d with
    | none => exact List.nodup_nil
    | some x => exact hem d x hd
  · exact fun x hx => hem [] x hx

variable {w : World} {env : Env} {plain : Bool} {blank : Inv} {ls : List (Str → Res Str)} {fs : FS} {t : FDir}
  {exts : Str → Inv → List (Str × Res (AMap Str V))}

theorem rootMetadata_nodup {load : Str → Res (Inv × List Fnd)} {ps : List (List Str)} {acc M : AMap Str (ObjMeta V)}
    (h : rootMetadata load exts ps acc = .ok M) (ha : (mkeys acc).Nodup) : (mkeys M).Nodup := by
  induction ps generalizing acc with
  | nil => cases h; exact ha
  | cons p ps ih =>
    obtain ⟨r, m, _, _, h3⟩ := rootMetadata_cons.1 h
    exact ih h3 (mkeys_mset_nodup ha _ _)

/-- where the metadata comes from, for any selection of objects -/
theorem extractMetaOf_sound {path id : Str} {M : AMap Str (ObjMeta V)} (h : extractMetaOf w env plain blank ls fs t exts path id = .ok M) :
    (mkeys M).Nodup ∧ ∀ k m, mget M k = some m → ∃ folder r, loadByFolder w env plain blank fs folder = .ok r ∧ r.1.id = k ∧
      objMetadata r.1 (exts folder r.1) = .ok m := by
  unfold extractMetaOf at h
  split at h
  · refine ⟨rootMetadata_nodup h List.nodup_nil, fun k m hm => ?_⟩
    rcases rootMetadata_sound h hm with hm | ⟨p, _, r, h1, h2, h3⟩
    · cases hm
    · exact ⟨_, r, h1, h2, h3⟩
  · obtain ⟨o, ho, h⟩ := res_bind_eq_ok.1 h
    obtain ⟨m, hm, h⟩ := res_bind_eq_ok.1 h
    cases h
    refine ⟨mkeys_mset_nodup (m := []) List.nodup_nil _ _, fun k m' hk => ?_⟩
    rw [mget_mset] at hk
    split at hk
    · rename_i he
      cases hk
      unfold oneObjectOf at ho
      split at ho
      · obtain ⟨r, hr, ho⟩ := res_bind_eq_ok.1 ho
        cases ho
        exact ⟨_, r, hr, he, hm⟩
      · obtain ⟨r, hr, ho⟩ := res_bind_eq_ok.1 ho
        cases ho
        unfold loadByID at hr
        split at hr
        · cases hr
        · exact ⟨_, r, hr, he, hm⟩
    · cases hk

/-- **C158, in full**: after `extractmeta --output` with exit status 0 the file has a document that describes the objects asked
for. -/
def C158_full : Prop := ∀ (V : Type) (c : Clock) (vt : V → Nat → Bytes) (vr : V → JV) (w : World) (env : Env) (plain : Bool) (blank : Inv)
  (ls : List (Str → Res Str)) (fs : FS) (t : FDir) (exts : Str → Inv → List (Str × Res (AMap Str V))) (path id format output : Str)
  (help : Bytes) (fail : GoErr → Bytes) (status : Bytes), (∀ v d, Reads (vt v d) (vr v)) →
  DecMaps w → InvMaps blank → output ≠ [] →
  (metaRun c vt path id format output help fail (extractMetaOf w env plain blank ls fs t exts path id) status).zero = true →
  ∃ M b doc, extractMetaOf w env plain blank ls fs t exts path id = .ok M ∧
    (metaRun c vt path id format output help fail (extractMetaOf w env plain blank ls fs t exts path id) status).file = some (output, b) ∧
    parseJson b = some doc ∧ DocDescribes c vr doc M

/-- **C158, the part that holds**: if a file was written, it has a document that describes the objects asked for. -/
theorem C158_written_partial {c : Clock} {vt : V → Nat → Bytes} {vr : V → JV} (hv : ∀ v d, Reads (vt v d) (vr v))
    (hw : DecMaps w) (hb : InvMaps blank) {path id format output f : Str} {help status b : Bytes} {fail : GoErr → Bytes}
    (h : (metaRun c vt path id format output help fail (extractMetaOf w env plain blank ls fs t exts path id) status).file = some (f, b)) :
    f = output ∧ ∃ M doc, extractMetaOf w env plain blank ls fs t exts path id = .ok M ∧ parseJson b = some doc ∧ DocDescribes c vr doc M := by
  unfold metaRun at h
  split at h
  · cases h
  · split at h
    · cases h
    · cases hM : extractMetaOf w env plain blank ls fs t exts path id with
      | error e => rw [hM] at h; cases e <;> cases h
      | ok M =>
        rw [hM] at h
        simp only at h
        split at h
        · cases h
          obtain ⟨hn, hs⟩ := extractMetaOf_sound hM
          obtain ⟨doc, h1, h2⟩ := metaText_describes (c := c) hv hn (fun k m hm => by
            obtain ⟨folder, r, h1, _, h3⟩ := hs k m hm
            exact objMetadata_maps (loadByFolder_maps hw hb h1) h3)
          exact ⟨rfl, M, doc, rfl, h1, h2⟩
        · cases h

/-- it is written exactly if the options are fine and the metadata of all objects asked for was found -/
theorem C158_written_iff {c : Clock} {vt : V → Nat → Bytes} {path id format output : Str} (ho : output ≠ []) {help status : Bytes}
    {fail : GoErr → Bytes} {R : Res (AMap Str (ObjMeta V))} :
    (∃ b, (metaRun c vt path id format output help fail R status).file = some (output, b)) ↔
      (path = [] ∨ id = []) ∧ toLower format = "json".toList ∧ ∃ M, R = .ok M := by
  unfold metaRun
  by_cases h1 : path ≠ [] ∧ id ≠ []
  · rw [if_pos h1]
    constructor
    · rintro ⟨b, hb⟩; cases hb
    · rintro ⟨h | h, _⟩
      · exact absurd h h1.1
      · exact absurd h h1.2
  · rw [if_neg h1]
    have h1' : path = [] ∨ id = [] := by
      by_cases hp : path = []
      · exact .inl hp
      · by_cases hq : id = []
        · exact .inr hq
        · exact absurd ⟨hp, hq⟩ h1
    by_cases h2 : toLower format ≠ "json".toList
    · rw [if_pos h2]
      constructor
      · rintro ⟨b, hb⟩; cases hb
      · rintro ⟨_, h, _⟩; exact absurd h h2
    · rw [if_neg h2]
      have h2' := not_not.1 h2
      cases R with
      | error e =>
        constructor
        · rintro ⟨b, hb⟩; cases e <;> cases hb
        · rintro ⟨_, _, M, hM⟩; cases hM
      | ok M =>
        simp only [if_pos ho]
        exact ⟨fun _ => ⟨h1', h2', M, rfl⟩, fun _ => ⟨_, rfl⟩⟩

/-- **C158, for the objects of a storage root**: the document says about each object what its inventory says. -/
theorem C158_objects_partial {c : Clock} {vr : V → JV} {M : AMap Str (ObjMeta V)} {doc : JV}
    (h : extractMetaOf w env plain blank ls fs t exts [] [] = .ok M) (hd : DocDescribes c vr doc M)
    (hids : ∀ p ∈ getObjectFolders t, ∀ q ∈ getObjectFolders t, ∀ r r', loadByFolder w env plain blank fs (folderPath p) = .ok r →
      loadByFolder w env plain blank fs (folderPath q) = .ok r' → r.1.id = r'.1.id → p = q)
    {p : List Str} (hp : p ∈ getObjectFolders t) {inv : Inv} {f : List Fnd}
    (hl : loadByFolder w env plain blank fs (folderPath p) = .ok (inv, f)) (hi : InvMaps inv) (hr : RefsResolve inv) :
    ∃ o, jpath doc ["Objects".toList, inv.id] = some o ∧ jtext o ["ID".toList] = some inv.id ∧
      jtext o ["DigestAlgorithm".toList] = some inv.digestAlg ∧ jtext o ["Head".toList] = some inv.head ∧
      (∀ v ver, mget inv.versions v = some ver →
        jtext o ["Versions".toList, v, "Created".toList] = some (c.time ver.created) ∧
        jtext o ["Versions".toList, v, "Message".toList] = some ver.message ∧
        jtext o ["Versions".toList, v, "Name".toList] = some ver.userName ∧
        jtext o ["Versions".toList, v, "Address".toList] = some ver.userAddress) ∧
      (∀ d ps, mget inv.manifest d = some ps → jtexts o ["Files".toList, d, "InternalName".toList] = some ps) ∧
      ∀ v q d, HasFile inv v q d ↔ ∃ ps, jtexts o ["Files".toList, d, "VersionName".toList, v] = some ps ∧ q ∈ ps := by
  have h' : extractMeta w env plain blank fs t exts = .ok M := by
    unfold extractMetaOf at h
    rw [if_pos ⟨rfl, rfl⟩] at h
    exact h
  obtain ⟨r, m, h1, h2, h3⟩ := rootMetadata_complete h' hids hp
  rw [hl] at h1
  cases h1
  have hx := C83_metadata_exact_partial hi.2.1 hi.2.2 hi.1.manifest hr h2
  have hd' := hd inv.id
  rw [h3] at hd'
  obtain ⟨o, ho, D⟩ := hd'
  refine ⟨o, ho, by rw [D.id, hx.id], by rw [D.alg, hx.alg], by rw [D.head, hx.head], ?_, ?_, ?_⟩
  · intro v ver hv
    have := hx.versions v
    rw [hv] at this
    exact D.version v _ this
  · intro d ps hps
    have := hx.files d
    rw [hps] at this
    obtain ⟨fm, hf, rfl⟩ := Option.map_eq_some_iff.1 this
    exact (D.file d fm hf).2.1
  · intro v q d
    rw [hx.names]
    constructor
    · rintro ⟨fm, ps, hf, hps, hq⟩
      exact ⟨ps, by rw [(D.file d fm hf).2.2.1 v, hps], hq⟩
    · rintro ⟨ps, hps, hq⟩
      cases hf : mget m.files d with
      | none =>
        exfalso
        have hn := D.noFile d hf
        unfold jtexts at hps
        have : jpath o ["Files".toList, d, "VersionName".toList, v] = none := by
          have hn' : jpath o ["Files".toList, d] = (jget o "Files".toList).bind (fun x => (jget x d).bind (fun y => some y)) := rfl
          rw [hn'] at hn
          show (jget o "Files".toList).bind (fun x => (jget x d).bind (fun y => jpath y _)) = none
          cases ha : jget o "Files".toList with
          | none => rfl
          | some x =>
            rw [ha] at hn
            simp only [Option.bind_some] at hn ⊢
            cases hb : jget x d with
            | none => rfl
            | some y => rw [hb] at hn; cases hn
        rw [this] at hps
        cases hps
      | some fm =>
        rw [(D.file d fm hf).2.2.1 v] at hps
        exact ⟨fm, ps, rfl, hps, hq⟩

/-! ## C159 -/

/-- **C159, in full**: without `--output` the standard output is the document. -/
def C159_full : Prop := ∀ (V : Type) (c : Clock) (vt : V → Nat → Bytes) (vr : V → JV) (format : Str) (help : Bytes) (fail : GoErr → Bytes)
  (M : AMap Str (ObjMeta V)) (status : Bytes), (∀ v d, Reads (vt v d) (vr v)) → (mkeys M).Nodup → (∀ id m, mget M id = some m → MetaMaps m) →
  toLower format = "json".toList →
  ∃ doc, parseJson (metaRun c vt [] [] format [] help fail (.ok M) status).stdout = some doc ∧ DocDescribes c vr doc M

/-- what standard output has -/
theorem stdout_eq {c : Clock} {vt : V → Nat → Bytes} {path id format : Str} {help status : Bytes} {fail : GoErr → Bytes}
    {M : AMap Str (ObjMeta V)} (hp : path = [] ∨ id = []) (hf : toLower format = "json".toList) :
    (metaRun c vt path id format [] help fail (.ok M) status).stdout =
      metaText c vt M ++ (ch '\n' :: (utf8 "metadata extraction done without errors\n".toList ++ status)) := by
  unfold metaRun
  have h1 : ¬ (path ≠ [] ∧ id ≠ []) := fun h => hp.elim h.1 h.2
  rw [if_neg h1, if_neg (not_not.2 hf)]
  simp only
  rw [if_neg (not_not.2 rfl)]

/-- **C159, the part that holds**: standard output begins with the document; a reader that stops after the first value gets it. -/
theorem C159_first_partial {c : Clock} {vt : V → Nat → Bytes} {vr : V → JV} (hv : ∀ v d, Reads (vt v d) (vr v)) {path id format : Str}
    {help status : Bytes} {fail : GoErr → Bytes} {M : AMap Str (ObjMeta V)} (hM : (mkeys M).Nodup)
    (hm : ∀ id m, mget M id = some m → MetaMaps m) (hp : path = [] ∨ id = []) (hf : toLower format = "json".toList) :
    ∃ doc rest, scanVal (metaRun c vt path id format [] help fail (.ok M) status).stdout.length
      (skipWs (metaRun c vt path id format [] help fail (.ok M) status).stdout) = some (doc, rest) ∧ DocDescribes c vr doc M := by
  obtain ⟨doc, h1, h2⟩ := metaText_describes (c := c) hv hM hm
  have hr := reads_meta (c := c) hv M
  rw [hr.parse] at h1
  cases h1
  rw [stdout_eq hp hf]
  exact ⟨_, _, by rw [hr.skip]; exact hr.scan _ _ (by simp), h2⟩

/-- **C159**: standard output is never a JSON document. -/
theorem C159_never {c : Clock} {vt : V → Nat → Bytes} {vr : V → JV} (hv : ∀ v d, Reads (vt v d) (vr v)) {path id format : Str}
    {help status : Bytes} {fail : GoErr → Bytes} {M : AMap Str (ObjMeta V)} (hp : path = [] ∨ id = [])
    (hf : toLower format = "json".toList) :
    parseJson (metaRun c vt path id format [] help fail (.ok M) status).stdout = none := by
  have hr := reads_meta (c := c) hv M
  rw [stdout_eq hp hf]
  unfold parseJson
  rw [hr.skip, hr.scan _ _ (by simp)]
  simp only
  rw [if_neg]
  intro h
  have h1 : skipWs (ch '\n' :: (utf8 "metadata extraction done without errors\n".toList ++ status)) =
      utf8 "metadata extraction done without errors\n".toList ++ status := rfl
  rw [h1] at h
  exact absurd (List.append_eq_nil_iff.1 h).1 (by decide)

end

/-- no extension reports anything: any reader will do -/
def noVt : Empty → Nat → Bytes := fun e _ => e.elim

/-- the clock that keeps times as they are -/
def plainClock : Clock := ⟨id, fun _ => true⟩

theorem ock_decMaps : InvMaps ockInv ∧ DecMaps ockWorld := by
  have h : InvMaps ockInv := by
    refine ⟨⟨by decide, by decide, fun a m h => by cases h⟩, by decide, ?_⟩
    intro v ver hv
    rw [show ockInv.versions = [("v1".toList, ⟨"t".toList, "m".toList, "u".toList, "mailto:u@x".toList, [("d1".toList, ["a".toList])]⟩)] from rfl] at hv
    cases List.mem_singleton.1 hv
    decide
  refine ⟨h, fun b r hr => ?_⟩
  have hr : (if b = [9] then some { inv := ockInv, vmeta := [] } else none) = some r := hr
  split at hr
  · cases hr; exact h
  · cases hr

/-- the hypotheses are met: the storage root with one object -/
example : ∃ b doc o, (metaRun plainClock noVt [] [] "JSON".toList "out".toList [] (fun _ => [])
      (extractMetaOf ockWorld exEnv false ockInv flatLayout okRootFS okRootTree (fun _ _ => []) [] []) []).file = some ("out".toList, b) ∧
    parseJson b = some doc ∧ jpath doc ["Objects".toList, "info:x".toList] = some o ∧ jtext o ["Head".toList] = some "v1".toList ∧
    jtexts o ["Files".toList, "d1".toList, "InternalName".toList] = some ["v1/content/a".toList] := by
  have hM : ∃ M, extractMetaOf (V := Empty) ockWorld exEnv false ockInv flatLayout okRootFS okRootTree (fun _ _ => []) [] [] = .ok M := ⟨_, rfl⟩
  obtain ⟨b, hb⟩ := (C158_written_iff (c := plainClock) (vt := noVt) (path := []) (id := []) (format := "JSON".toList) (output := "out".toList)
    (by decide) (help := []) (status := []) (fail := fun _ => [])).2 ⟨.inl rfl, by decide, hM⟩
  obtain ⟨_, M, doc, h1, h2, h3⟩ := C158_written_partial (vr := Empty.elim) (fun v => v.elim) ock_decMaps.2 ock_decMaps.1 hb
  have hl : getObjectFolders okRootTree = [["o".toList]] := by decide
  obtain ⟨o, ho, _, _, h4, _, h5, _⟩ := C158_objects_partial h1 h3 (by
      rw [hl]
      intro p hp q hq
      rw [List.mem_singleton.1 hp, List.mem_singleton.1 hq]
      intros; rfl) (p := ["o".toList]) (by rw [hl]; simp) (inv := ockInv) (f := []) (by decide) ock_decMaps.1 (by
      refine ⟨?_, ?_⟩
      · intro v ver d hv hd
        rw [show ockInv.versions = [("v1".toList, ⟨"t".toList, "m".toList, "u".toList, "mailto:u@x".toList, [("d1".toList, ["a".toList])]⟩)] from rfl] at hv
        cases List.mem_singleton.1 hv
        rw [show d = "d1".toList from List.mem_singleton.1 hd]
        exact ⟨["v1/content/a".toList], by decide⟩
      · intro d m hm
        rw [show ockInv.manifest = [("d1".toList, ["v1/content/a".toList])] from rfl] at hm
        cases List.mem_singleton.1 hm
        decide)
  exact ⟨b, doc, o, hb, h2, ho, h4, h5 _ _ (by decide)⟩

/-- **C158 is violated**: if the metadata of one object cannot be had, nothing is written and the exit status is 0. -/
theorem C158_full_fails : ¬ C158_full := by
  intro hf
  obtain ⟨M, _, _, h, _⟩ := hf Empty plainClock noVt Empty.elim ockWorld exEnv false ockInv flatLayout okRootFS okRootTree (fun _ _ => [])
    "p".toList [] "json".toList "out".toList [] (fun _ => []) [] (fun v => v.elim) ock_decMaps.2 ock_decMaps.1 (by decide) rfl
  have h' : extractMetaOf (V := Empty) ockWorld exEnv false ockInv flatLayout okRootFS okRootTree (fun _ _ => []) "p".toList [] =
    .error (.error "cannot get version") := rfl
  rw [h'] at h
  cases h

/-- the hypotheses of the theorems on C159 are met by the metadata of that storage root -/
example : ∃ M, extractMetaOf (V := Empty) ockWorld exEnv false ockInv flatLayout okRootFS okRootTree (fun _ _ => []) [] [] = .ok M ∧ M ≠ [] ∧
    (∃ doc rest, scanVal (metaRun plainClock noVt [] [] "json".toList [] [] (fun _ => []) (.ok M) []).stdout.length
      (skipWs (metaRun plainClock noVt [] [] "json".toList [] [] (fun _ => []) (.ok M) []).stdout) = some (doc, rest) ∧
      DocDescribes plainClock Empty.elim doc M) ∧
    parseJson (metaRun plainClock noVt [] [] "json".toList [] [] (fun _ => []) (.ok M) []).stdout = none := by
  have hM : ∃ M, extractMetaOf (V := Empty) ockWorld exEnv false ockInv flatLayout okRootFS okRootTree (fun _ _ => []) [] [] = .ok M ∧
    M ≠ [] := ⟨_, rfl, by simp [mset]⟩
  obtain ⟨M, hM, hne⟩ := hM
  obtain ⟨hn, hs⟩ := extractMetaOf_sound hM
  refine ⟨M, hM, hne, C159_first_partial (fun v => v.elim) hn (fun k m hm => ?_) (.inl rfl) (by decide),
    C159_never (vr := Empty.elim) (fun v => v.elim) (.inl rfl) (by decide)⟩
  obtain ⟨folder, r, h1, _, h3⟩ := hs k m hm
  exact objMetadata_maps (loadByFolder_maps ock_decMaps.2 ock_decMaps.1 h1) h3

/-- **C159 is violated**. -/
theorem C159_full_fails : ¬ C159_full := by
  intro hf
  obtain ⟨doc, h, _⟩ := hf Empty plainClock noVt Empty.elim "json".toList [] (fun _ => []) [] [] (fun v => v.elim) List.nodup_nil
    (fun id m h => by cases h) (by decide)
  rw [C159_never (vr := Empty.elim) (fun v => v.elim) (.inl rfl) (by decide)] at h
  cases h

end Gocfl
