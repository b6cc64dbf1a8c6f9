import Verif.Model.StringKeys
import Verif.Model.MetaFile
import Mathlib.Data.List.Forall2

/-! # C192: metadata in YAML or TOML becomes JSON -/

namespace Gocfl

variable {K V : Type}

/-! ## What is in a document -/

/-- a step into a document: into a map, into a list -/
inductive DocStep where
  | key (k : Str)
  | idx (n : Nat)

/-- the value at a place of a document -/
inductive DocAt : GoVal K V → List DocStep → GoVal K V → Prop
  | here (v) : DocAt v [] v
  | any {l k x p y} : (Sum.inl k, x) ∈ l → DocAt x p y → DocAt (.anyMap l) (.key k :: p) y
  | str {l k x p y} : (k, x) ∈ l → DocAt x p y → DocAt (.strMap l) (.key k :: p) y
  | idx {l n x p y} : l[n]? = some x → DocAt x p y → DocAt (.list l) (.idx n :: p) y

/-- what a value is without what is below it: a map with these keys, a list of this length, or a value -/
inductive DocNode (K V : Type) where
  | leaf (v : V)
  | map (keys : List (Sum Str K))
  | list (n : Nat)

def GoVal.node : GoVal K V → DocNode K V
  | .leaf v => .leaf v
  | .anyMap l => .map (l.map (·.1))
  | .strMap l => .map (l.map (fun e => .inl e.1))
  | .list l => .list l.length

/-- the document has this at this place -/
def DocLook (v : GoVal K V) (p : List DocStep) (n : DocNode K V) : Prop := ∃ x, DocAt v p x ∧ x.node = n

/-- all keys are strings -/
def KeysStrings (v : GoVal K V) : Prop := ∀ p ks k, DocLook v p (.map ks) → Sum.inr k ∉ ks

/-- no map with any keys is below one with string keys -/
def NotMixed (v : GoVal K V) : Prop := ∀ p l q m, DocAt v p (.strMap l) → ¬ DocAt (GoVal.strMap l) q (.anyMap m)

/-! ## The conversion -/

theorem stringKeyed_iff {l : List (Sum Str K × GoVal K V)} {m : List (Str × GoVal K V)} :
    stringKeyed l = .ok m ↔ List.Forall₂ (fun a b => a.1 = Sum.inl b.1 ∧ toStringKeys a.2 = .ok b.2) l m := by
  induction l generalizing m with
  | nil => simp only [stringKeyed]; constructor
           · intro h; cases h; exact .nil
           · intro h; cases h; rfl
  | cons e l ih =>
    obtain ⟨k | k, v⟩ := e
    · simp only [stringKeyed]
      rw [res_bind_eq_ok]
      constructor
      · rintro ⟨v', hv, h⟩
        obtain ⟨l', hl, h⟩ := res_bind_eq_ok.1 h
        cases h
        exact .cons ⟨rfl, hv⟩ (ih.1 hl)
      · intro h
        cases h with
        | cons h1 h2 =>
          rename_i b m
          obtain ⟨kb, vb⟩ := b
          obtain ⟨h1, h1'⟩ := h1
          cases h1
          exact ⟨vb, h1', res_bind_eq_ok.2 ⟨m, ih.2 h2, rfl⟩⟩
    · simp only [stringKeyed]
      constructor
      · intro h; cases h
      · intro h
        cases h with
        | cons h1 _ => cases h1.1

theorem stringKeyedList_iff {l m : List (GoVal K V)} : stringKeyedList l = .ok m ↔ List.Forall₂ (fun a b => toStringKeys a = .ok b) l m := by
  induction l generalizing m with
  | nil => simp only [stringKeyedList]; constructor
           · intro h; cases h; exact .nil
           · intro h; cases h; rfl
  | cons v l ih =>
    simp only [stringKeyedList]
    rw [res_bind_eq_ok]
    constructor
    · rintro ⟨v', hv, h⟩
      obtain ⟨l', hl, h⟩ := res_bind_eq_ok.1 h
      cases h
      exact .cons hv (ih.1 hl)
    · intro h
      cases h with
      | cons h1 h2 => exact ⟨_, h1, res_bind_eq_ok.2 ⟨_, ih.2 h2, rfl⟩⟩

theorem jsonableMap_iff {l : List (Str × GoVal K V)} : jsonableMap l = true ↔ ∀ e ∈ l, jsonable e.2 = true := by
  induction l with
  | nil => simp [jsonableMap]
  | cons e l ih => obtain ⟨k, v⟩ := e; simp [jsonableMap, ih]

theorem jsonableList_iff {l : List (GoVal K V)} : jsonableList l = true ↔ ∀ e ∈ l, jsonable e = true := by
  induction l with
  | nil => simp [jsonableList]
  | cons e l ih => simp [jsonableList, ih]

theorem jsonable_at {v : GoVal K V} (h : jsonable v = true) {p : List DocStep} {x : GoVal K V} (hx : DocAt v p x) : jsonable x = true := by
  induction hx with
  | here => exact h
  | any => simp [jsonable] at h
  | str hm _ ih => exact ih (jsonableMap_iff.1 (by simpa [jsonable] using h) _ hm)
  | idx hm _ ih => exact ih (jsonableList_iff.1 (by simpa [jsonable] using h) _ (List.mem_of_getElem? hm))

theorem jsonable_of (v : GoVal K V) (h : ∀ p m, ¬ DocAt v p (.anyMap m)) : jsonable v = true := by
  match v with
  | .leaf _ => rfl
  | .anyMap l => exact absurd (.here _) (h [] l)
  | .strMap l =>
    rw [jsonable, jsonableMap_iff]
    intro e he
    have : sizeOf e < sizeOf l := List.sizeOf_lt_of_mem he
    obtain ⟨k, x⟩ := e
    exact jsonable_of x (fun p m hm => h (.key k :: p) m (.str he hm))
  | .list l =>
    rw [jsonable, jsonableList_iff]
    intro e he
    have : sizeOf e < sizeOf l := List.sizeOf_lt_of_mem he
    obtain ⟨n, hn⟩ := List.getElem?_of_mem he
    exact jsonable_of e (fun p m hm => h (.idx n :: p) m (.idx hn hm))
termination_by sizeOf v
decreasing_by all_goals (simp_wf; simp at *; omega)

theorem forall2_mem_left {α β : Type} {R : α → β → Prop} {l : List α} {m : List β} (h : List.Forall₂ R l m) {a : α} (ha : a ∈ l) : ∃ b ∈ m, R a b := by
  induction h with
  | nil => simp at ha
  | cons h1 _ ih =>
    rcases List.mem_cons.1 ha with rfl | ha
    · exact ⟨_, List.mem_cons_self, h1⟩
    · obtain ⟨b, hb, h⟩ := ih ha; exact ⟨b, List.mem_cons_of_mem _ hb, h⟩

theorem forall2_mem_right {α β : Type} {R : α → β → Prop} {l : List α} {m : List β} (h : List.Forall₂ R l m) {b : β} (hb : b ∈ m) : ∃ a ∈ l, R a b := by
  induction h with
  | nil => simp at hb
  | cons h1 _ ih =>
    rcases List.mem_cons.1 hb with rfl | hb
    · exact ⟨_, List.mem_cons_self, h1⟩
    · obtain ⟨a, ha, h⟩ := ih hb; exact ⟨a, List.mem_cons_of_mem _ ha, h⟩

theorem forall2_getElem {α β : Type} {R : α → β → Prop} {l : List α} {m : List β} (h : List.Forall₂ R l m) (n : Nat) :
    (∀ a, l[n]? = some a → ∃ b, m[n]? = some b ∧ R a b) ∧ (∀ b, m[n]? = some b → ∃ a, l[n]? = some a ∧ R a b) := by
  induction h generalizing n with
  | nil => simp
  | cons h1 _ ih =>
    cases n with
    | zero => simp [h1]
    | succ n => simpa using ih n

/-- the same document -/
theorem toStringKeys_look {v j : GoVal K V} (h : toStringKeys v = .ok j) (p : List DocStep) (n : DocNode K V) : DocLook v p n ↔ DocLook j p n := by
  induction p generalizing v j with
  | nil =>
    have e : ∀ (v : GoVal K V), DocLook v [] n ↔ v.node = n := by
      intro v
      constructor
      · rintro ⟨x, hx, h⟩; cases hx; exact h
      · intro h; exact ⟨v, .here v, h⟩
    rw [e, e]
    suffices v.node = j.node by rw [this]
    cases v with
    | leaf v => cases h; rfl
    | strMap l => cases h; rfl
    | list l =>
      obtain ⟨m, hm, h⟩ := res_bind_eq_ok.1 h
      cases h
      rw [GoVal.node, GoVal.node, (stringKeyedList_iff.1 hm).length_eq]
    | anyMap l =>
      obtain ⟨m, hm, h⟩ := res_bind_eq_ok.1 h
      cases h
      rw [GoVal.node, GoVal.node]
      congr 1
      have := stringKeyed_iff.1 hm
      clear hm h
      induction this with
      | nil => rfl
      | cons h1 _ ih => rw [List.map_cons, List.map_cons, ih, h1.1]
  | cons s p ih =>
    cases v with
    | leaf v => cases h; rfl
    | strMap l => cases h; rfl
    | list l =>
      obtain ⟨m, hm, h⟩ := res_bind_eq_ok.1 h
      cases h
      have hm := stringKeyedList_iff.1 hm
      constructor
      · rintro ⟨x, hx, hn⟩
        cases hx with
        | idx h1 h2 =>
          obtain ⟨b, hb, hR⟩ := (forall2_getElem hm _).1 _ h1
          obtain ⟨y, hy, hn⟩ := (ih hR).1 ⟨x, h2, hn⟩
          exact ⟨y, .idx hb hy, hn⟩
      · rintro ⟨x, hx, hn⟩
        cases hx with
        | idx h1 h2 =>
          obtain ⟨b, hb, hR⟩ := (forall2_getElem hm _).2 _ h1
          obtain ⟨y, hy, hn⟩ := (ih hR).2 ⟨x, h2, hn⟩
          exact ⟨y, .idx hb hy, hn⟩
    | anyMap l =>
      obtain ⟨m, hm, h⟩ := res_bind_eq_ok.1 h
      cases h
      have hm := stringKeyed_iff.1 hm
      constructor
      · rintro ⟨x, hx, hn⟩
        cases hx with
        | any h1 h2 =>
          obtain ⟨⟨k, b⟩, hb, hk, hR⟩ := forall2_mem_left hm h1
          cases hk
          obtain ⟨y, hy, hn⟩ := (ih hR).1 ⟨x, h2, hn⟩
          exact ⟨y, .str hb hy, hn⟩
      · rintro ⟨x, hx, hn⟩
        cases hx with
        | str h1 h2 =>
          obtain ⟨⟨k, b⟩, hb, hk, hR⟩ := forall2_mem_right hm h1
          simp only at hk hR
          subst hk
          obtain ⟨y, hy, hn⟩ := (ih hR).2 ⟨x, h2, hn⟩
          exact ⟨y, .any hb hy, hn⟩

theorem docLook_cons {v x : GoVal K V} {s : DocStep} (hs : ∀ p y, DocAt x p y → DocAt v (s :: p) y) :
    (KeysStrings v → KeysStrings x) ∧ (NotMixed v → NotMixed x) :=
  ⟨fun h p ks k ⟨y, hy, hn⟩ => h (s :: p) ks k ⟨y, hs p y hy, hn⟩, fun h p l q m hl => h (s :: p) l q m (hs p _ hl)⟩

theorem toStringKeys_total (v : GoVal K V) (hk : KeysStrings v) (hm : NotMixed v) : ∃ j, toStringKeys v = .ok j ∧ jsonable j = true := by
  match v with
  | .leaf v => exact ⟨_, rfl, rfl⟩
  | .strMap l => exact ⟨_, rfl, jsonable_of _ (fun q m h => hm [] l q m (.here _) h)⟩
  | .list l =>
    have : ∀ l' : List (GoVal K V), (∀ e ∈ l', e ∈ l) → ∃ m, stringKeyedList l' = .ok m ∧ jsonableList m = true := by
      intro l' hl
      induction l' with
      | nil => exact ⟨[], rfl, rfl⟩
      | cons e l' ih =>
        have he := hl e List.mem_cons_self
        have : sizeOf e < sizeOf l := List.sizeOf_lt_of_mem he
        obtain ⟨n, hn⟩ := List.getElem?_of_mem he
        have hc := docLook_cons (v := .list l) (x := e) (s := .idx n) (fun p y h => .idx hn h)
        obtain ⟨j, hj, hjj⟩ := toStringKeys_total e (hc.1 hk) (hc.2 hm)
        obtain ⟨m, hm', hmm⟩ := ih (fun x hx => hl x (List.mem_cons_of_mem _ hx))
        exact ⟨j :: m, by simp only [stringKeyedList, hj, hm']; rfl, by simp [jsonableList, hjj, hmm]⟩
    obtain ⟨m, h1, h2⟩ := this l (fun _ h => h)
    exact ⟨.list m, by simp only [toStringKeys, h1]; rfl, by simp [jsonable, h2]⟩
  | .anyMap l =>
    have : ∀ l' : List (Sum Str K × GoVal K V), (∀ e ∈ l', e ∈ l) → ∃ m, stringKeyed l' = .ok m ∧ jsonableMap m = true := by
      intro l' hl
      induction l' with
      | nil => exact ⟨[], rfl, rfl⟩
      | cons e l' ih =>
        have he := hl e List.mem_cons_self
        have : sizeOf e < sizeOf l := List.sizeOf_lt_of_mem he
        obtain ⟨k | k, x⟩ := e
        · have hc := docLook_cons (v := .anyMap l) (x := x) (s := .key k) (fun p y h => .any he h)
          obtain ⟨j, hj, hjj⟩ := toStringKeys_total x (hc.1 hk) (hc.2 hm)
          obtain ⟨m, hm', hmm⟩ := ih (fun x hx => hl x (List.mem_cons_of_mem _ hx))
          exact ⟨(k, j) :: m, by simp only [stringKeyed, hj, hm']; rfl, by simp [jsonableMap, hjj, hmm]⟩
        · exact absurd (List.mem_map.2 ⟨_, he, rfl⟩) (hk [] _ k ⟨_, .here _, rfl⟩)
    obtain ⟨m, h1, h2⟩ := this l (fun _ h => h)
    exact ⟨.strMap m, by simp only [toStringKeys, h1]; rfl, by simp [jsonable, h2]⟩
termination_by sizeOf v
decreasing_by all_goals (simp_wf; simp at *; omega)

theorem toStringKeys_mixed {v j : GoVal K V} (h : toStringKeys v = .ok j) (hj : jsonable j = true) : NotMixed v := by
  intro p
  induction p generalizing v j with
  | nil =>
    intro l q m hl hq
    cases hl
    cases h
    have := jsonable_at hj hq
    simp [jsonable] at this
  | cons s p ih =>
    intro l q m hl hq
    cases hl with
    | any h1 h2 =>
      obtain ⟨m', hm, h⟩ := res_bind_eq_ok.1 h
      cases h
      obtain ⟨⟨k, b⟩, hb, hk, hR⟩ := forall2_mem_left (stringKeyed_iff.1 hm) h1
      exact ih hR (jsonable_at hj (.str hb (.here _))) l q m h2 hq
    | str h1 h2 =>
      cases h
      have := jsonable_at (jsonable_at hj (.str h1 h2)) hq
      simp [jsonable] at this
    | idx h1 h2 =>
      obtain ⟨m', hm, h⟩ := res_bind_eq_ok.1 h
      cases h
      obtain ⟨b, hb, hR⟩ := (forall2_getElem (stringKeyedList_iff.1 hm) _).1 _ h1
      exact ih hR (jsonable_at hj (.idx hb (.here _))) l q m h2 hq

theorem jsonable_keys {j : GoVal K V} (hj : jsonable j = true) : KeysStrings j := by
  rintro p ks k ⟨x, hx, hn⟩ hk
  have h := jsonable_at hj hx
  cases x with
  | leaf v => cases hn
  | list l => cases hn
  | anyMap l => simp [jsonable] at h
  | strMap l =>
    cases hn
    obtain ⟨e, _, he⟩ := List.mem_map.1 hk
    cases he

/-- Metadata is stored, as far as the schema lets it, exactly if all keys in it are strings and no map with any keys is below one with
string keys. -/
theorem C192_converted_iff {v : GoVal K V} : (∃ j, metaValue v = .ok j) ↔ KeysStrings v ∧ NotMixed v := by
  unfold metaValue
  constructor
  · rintro ⟨j, h⟩
    obtain ⟨j', hj, h⟩ := res_bind_eq_ok.1 h
    split at h
    · rename_i hjj
      cases h
      refine ⟨fun p ks k hl => ?_, toStringKeys_mixed hj hjj⟩
      exact jsonable_keys hjj p ks k ((toStringKeys_look hj p _).1 hl)
    · cases h
  · rintro ⟨hk, hm⟩
    obtain ⟨j, hj, hjj⟩ := toStringKeys_total v hk hm
    exact ⟨j, by rw [hj]; show (if jsonable j then _ else _) = _; rw [if_pos hjj]⟩

/-- What is stored is what was given: at every place the same value, the same keys, as many elements; and it has no maps with any keys,
so that it can be written. -/
theorem C192_same_document {v j : GoVal K V} (h : metaValue v = .ok j) :
    (∀ p n, DocLook v p n ↔ DocLook j p n) ∧ ∀ p m, ¬ DocAt j p (.anyMap m) := by
  obtain ⟨j', hj, h⟩ := res_bind_eq_ok.1 h
  split at h
  · rename_i hjj
    cases h
    refine ⟨toStringKeys_look hj, fun p m hm => ?_⟩
    have := jsonable_at hjj hm
    simp [jsonable] at this
  · cases h

/-- YAML: yaml.v2 gives no map with string keys, so only the keys matter. -/
theorem C192_yaml {v : GoVal K V} (hy : ∀ p l, ¬ DocAt v p (.strMap l)) : (∃ j, metaValue v = .ok j) ↔ KeysStrings v := by
  rw [C192_converted_iff]
  exact ⟨fun h => h.1, fun h => ⟨h, fun p l q m hl => absurd hl (hy p l)⟩⟩

theorem docAt_trans {v x y : GoVal K V} {p q : List DocStep} (h : DocAt v p x) (h' : DocAt x q y) : DocAt v (p ++ q) y := by
  induction h with
  | here => exact h'
  | any h1 _ ih => exact .any h1 (ih h')
  | str h1 _ ih => exact .str h1 (ih h')
  | idx h1 _ ih => exact .idx h1 (ih h')

theorem toStringKeys_none (v : GoVal K V) (ht : ∀ p l, ¬ DocAt v p (.anyMap l)) : toStringKeys v = .ok v := by
  match v with
  | .leaf v => rfl
  | .strMap l => rfl
  | .anyMap l => exact absurd (.here _) (ht [] l)
  | .list l =>
    have : stringKeyedList l = .ok l := by
      rw [stringKeyedList_iff, List.forall₂_same]
      intro e he
      have : sizeOf e < sizeOf l := List.sizeOf_lt_of_mem he
      obtain ⟨n, hn⟩ := List.getElem?_of_mem he
      exact toStringKeys_none e (fun p m hm => ht (.idx n :: p) m (.idx hn hm))
    rw [toStringKeys, this]; rfl
termination_by sizeOf v
decreasing_by all_goals (simp_wf; simp at *; omega)

/-- TOML: there are no maps with any keys; everything is stored as it is. -/
theorem C192_toml {v : GoVal K V} (ht : ∀ p l, ¬ DocAt v p (.anyMap l)) : metaValue v = .ok v := by
  unfold metaValue
  rw [toStringKeys_none v ht]
  show (if jsonable v then _ else _) = _
  rw [if_pos (jsonable_of v ht)]

/-- With the extension: what an update stores is the text of a document that satisfies the schema and is the one in the source.
`parse` is the decoder of the library; for JSON, where maps have string keys, the conversion changes nothing. -/
theorem C192_stored {m : MetaFileWorld (GoVal K V)} {parse : Str → Bytes → Option (GoVal K V)} {text : GoVal K V → Bytes} {u : Url} {id : Str}
    {data : Bytes} (hdec : ∀ e b, m.decode e b = (parse e b).bind (fun v => (toStringKeys v).toOption))
    (hmar : ∀ j, m.marshal j = if jsonable j then some (text j) else none) (h : metaData m u id = .ok data) :
    ∃ fname read b v j, metaSource m u id = some (fname, read) ∧ read fname = some b ∧ parse (toLower (fileExt fname)) b = some v ∧
      (∀ p n, DocLook v p n ↔ DocLook j p n) ∧ KeysStrings v ∧ m.valid j = true ∧ data = text j := by
  unfold metaData at h
  split at h
  · cases h
  · rename_i fname read hs
    split at h
    · cases h
    · rename_i b hb
      split at h
      · split at h
        · cases h
        · rename_i j hj
          split at h
          · rename_i hval
            split at h
            · cases h
            · rename_i d hd
              cases h
              rw [hmar] at hd
              split at hd
              · rename_i hjj
                cases hd
                rw [hdec] at hj
                obtain ⟨v, hv, hj⟩ := Option.bind_eq_some_iff.1 hj
                cases hk : toStringKeys v with
                | error e => rw [hk] at hj; cases hj
                | ok j' =>
                  rw [hk] at hj; cases hj
                  have hmv : metaValue v = .ok j := by
                    unfold metaValue
                    rw [hk]
                    show (if jsonable j then _ else _) = _
                    rw [if_pos hjj]
                  exact ⟨fname, read, b, v, j, hs, hb, hv, (C192_same_document hmv).1, (C192_converted_iff.1 ⟨j, hmv⟩).1, hval, rfl⟩
              · cases hd
          · cases h
      · cases h

/-! ## Examples: `{title: t, authors: [{name: n}]}`, and with the key `1` in the author -/

def yamlDoc (k : Sum Str Nat) : GoVal Nat Str :=
  .anyMap [(.inl "title".toList, .leaf "t".toList), (.inl "authors".toList, .list [.anyMap [(k, .leaf "n".toList)]])]

example : metaValue (yamlDoc (.inl "name".toList)) =
    .ok (.strMap [("title".toList, .leaf "t".toList), ("authors".toList, .list [.strMap [("name".toList, .leaf "n".toList)]])]) := rfl

example : metaValue (yamlDoc (.inr 1)) = .error (.error "found non-string key") := rfl

/-- the name is at its place -/
example : DocLook (yamlDoc (.inl "name".toList)) [.key "authors".toList, .idx 0, .key "name".toList] (.leaf "n".toList) :=
  ⟨_, .any (.tail _ (.head _)) (.idx rfl (.any (.head _) (.here _))), rfl⟩

example : ¬ KeysStrings (yamlDoc (.inr 1)) := by
  intro h
  exact h [.key "authors".toList, .idx 0] [.inr 1] 1 ⟨_, .any (.tail _ (.head _)) (.idx rfl (.here _)), rfl⟩ (.head _)

/-- an extension that reads one YAML file -/
def yamlWorld (w : World) : MetaFileWorld (GoVal Nat Str) where
  w := w
  exts := []
  folder := "NNNN-metafile".toList
  cfg := ⟨"extension".toList, [], "info.json".toList⟩
  source := some ⟨"file".toList, "/m/$ID.yaml".toList, []⟩
  openFile := fun p => if p = "/m/x.yaml".toList then some [1] else none
  httpGet := fun _ => none
  decode := fun e b => (if e = ".yaml".toList ∧ b = [1] then some (yamlDoc (.inl "name".toList)) else none : Option _).bind
    (fun v => (toStringKeys v).toOption)
  valid := fun _ => true
  marshal := fun j => if jsonable j then some [2] else none
  asMap := fun _ => none

/-- the hypotheses of `C192_stored`; the first holds by definition -/
example (w : World) : metaData (yamlWorld w) ⟨"file".toList, "/m/$ID.yaml".toList, []⟩ "x".toList = .ok [2] ∧
    ∀ j, (yamlWorld w).marshal j = if jsonable j then some ((fun _ => [2]) j) else none := ⟨by rfl, fun _ => rfl⟩

/-- a map with any keys below one with string keys would not be converted; neither decoder gives it -/
example : metaValue (.strMap [("a".toList, .anyMap [(.inl "b".toList, .leaf [])])] : GoVal Nat Str) =
    .error (.error "cannot marshal info json") := rfl

end Gocfl
