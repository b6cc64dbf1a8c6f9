import Verif.Model.Stat
import Verif.Props.ObjCheck
import Verif.Props.Enumerate

/-!
# C147–C150: what `stat` shows
-/

namespace Gocfl

/-! ## Lemmas on listings -/

@[simp] theorem more_printed (l : List Str) (b : Listing) : (printed l).more b = (l ++ b.1, b.2) := rfl

@[simp] theorem more_deref_false (s : String) (b : Listing) : (deref false s).more b = b := rfl

theorem more_none {a b : Listing} : (a.more b).2 = none ↔ a.2 = none ∧ b.2 = none := by
  unfold Listing.more
  split
  · rename_i e h; simp [h]
  · rename_i h; simp [h]

theorem more_fst {a b : Listing} (h : a.2 = none) : (a.more b).1 = a.1 ++ b.1 := by
  unfold Listing.more
  rw [h]

theorem eachStat_none {α : Type} {f : α → Listing} {l : List α} : (eachStat f l).2 = none ↔ ∀ a ∈ l, (f a).2 = none := by
  induction l with
  | nil => simp [eachStat, printed]
  | cons a l ih => simp [eachStat, more_none, ih]

theorem eachStat_fst {α : Type} {f : α → Listing} {l : List α} (h : ∀ a ∈ l, (f a).2 = none) :
    (eachStat f l).1 = l.flatMap (fun a => (f a).1) := by
  induction l with
  | nil => rfl
  | cons a l ih =>
    rw [eachStat, more_fst (h a (by simp)), ih (fun b hb => h b (by simp [hb]))]
    rfl

/-! ## C147: the versions and files can be read off the listing -/

/-- what a reader wants to know about a version -/
structure ShownVersion where
  name : Str
  user : Str
  created : Str
  message : Str
  files : List (Str × List Str)
  deriving DecidableEq

/-- the files of a version: logical paths, each with the files it is stored in -/
def filesOf (inv : Inv) (x : Version) : List (Str × List Str) :=
  x.state.flatMap (fun e => e.2.map (fun s => (s, (mget inv.manifest e.1).getD [])))

def shownVersion (showTime : Str → Str) (inv : Inv) (e : Str × Version) : ShownVersion :=
  ⟨e.1, e.2.userName ++ (" (".toList ++ (e.2.userAddress ++ ")".toList)), showTime e.2.created, e.2.message, filesOf inv e.2⟩

/-- the rest of a string with the given beginning -/
def afterPrefix (p s : Str) : Option Str := if p.isPrefixOf s then some (s.drop p.length) else none

/-- what the lines below have told -/
structure Pending where
  contents : List Str := []
  files : List (Str × List Str) := []
  message : Str := []
  created : Str := []
  user : Str := []
  done : List ShownVersion := []

/-- a reader of the listing of the object `id`, line by line from below -/
def readLine (id : Str) (l : Str) (q : Pending) : Pending :=
  match afterPrefix (idTag id) l with
  | none => q
  | some r =>
    match afterPrefix "          ".toList r with
    | some c => { q with contents := c :: q.contents }
    | none =>
    match afterPrefix "       ".toList r with
    | some s => { q with contents := [], files := (s, q.contents) :: q.files }
    | none =>
    match afterPrefix "    Message: ".toList r with
    | some m => { q with message := m }
    | none =>
    match afterPrefix "    Created: ".toList r with
    | some t => { q with created := t }
    | none =>
    match afterPrefix "    User: ".toList r with
    | some u => { q with user := u }
    | none =>
    match afterPrefix "Version ".toList r with
    | some v => { done := ⟨v, q.user, q.created, q.message, q.files⟩ :: q.done }
    | none => q

def readListing (id text : Str) : List ShownVersion := ((splitOn '\n' text).foldr (readLine id) {}).done

/-- nothing breaks the lines of the object, and no logical path begins with three blanks -/
structure PlainText (S : StatEnv) (x : ExtText) (inv : Inv) : Prop where
  id : '\n' ∉ inv.id
  alg : '\n' ∉ inv.digestAlg
  head : '\n' ∉ inv.head
  fixity : ∀ a ∈ mkeys inv.fixity, '\n' ∉ a
  version : ∀ e ∈ inv.versions, '\n' ∉ e.1 ∧ '\n' ∉ e.2.userName ∧ '\n' ∉ e.2.userAddress ∧ '\n' ∉ S.showTime e.2.created ∧
    '\n' ∉ e.2.message
  path : ∀ e ∈ inv.versions, ∀ d ∈ e.2.state, ∀ s ∈ d.2, '\n' ∉ s ∧ ("   ".toList.isPrefixOf s) = false
  stored : ∀ e ∈ inv.manifest, ∀ m ∈ e.2, '\n' ∉ m
  config : ∀ c ∈ x.initial :: x.configs, ∀ l ∈ splitOn '\n' c, l.head? ≠ some '['

/-- the lines about the storage root say nothing about an object -/
structure PlainRoot (S : StatEnv) : Prop where
  version : '\n' ∉ S.version
  config : ∀ c ∈ S.rootExt.initial :: S.rootExt.configs, ∀ l ∈ splitOn '\n' c, l.head? ≠ some '['

theorem afterPrefix_append (p r : Str) : afterPrefix p (p ++ r) = some r := by
  unfold afterPrefix
  rw [if_pos (by simp)]
  simp

theorem readLine_tag (id r : Str) (q : Pending) : readLine id (idTag id ++ r) q =
    match afterPrefix "          ".toList r with
    | some c => { q with contents := c :: q.contents }
    | none =>
    match afterPrefix "       ".toList r with
    | some s => { q with contents := [], files := (s, q.contents) :: q.files }
    | none =>
    match afterPrefix "    Message: ".toList r with
    | some m => { q with message := m }
    | none =>
    match afterPrefix "    Created: ".toList r with
    | some t => { q with created := t }
    | none =>
    match afterPrefix "    User: ".toList r with
    | some u => { q with user := u }
    | none =>
    match afterPrefix "Version ".toList r with
    | some v => { done := ⟨v, q.user, q.created, q.message, q.files⟩ :: q.done }
    | none => q := by
  unfold readLine
  rw [afterPrefix_append]

theorem readLine_other {id l : Str} (h : l.head? ≠ some '[') (q : Pending) : readLine id l q = q := by
  unfold readLine
  have : afterPrefix (idTag id) l = none := by
    unfold afterPrefix idTag
    rw [if_neg]
    cases l with
    | nil => simp
    | cons c l =>
      intro hp
      rw [List.isPrefixOf_iff_prefix] at hp
      exact h (by rw [(List.cons_prefix_cons.1 hp).1.symm]; rfl)
  rw [this]

theorem readLine_stored (id m : Str) (q : Pending) :
    readLine id (idTag id ++ ("          ".toList ++ m)) q = { q with contents := m :: q.contents } := by
  rw [readLine_tag, afterPrefix_append]

theorem readLine_path (id s : Str) (h : ("   ".toList.isPrefixOf s) = false) (q : Pending) :
    readLine id (idTag id ++ ("       ".toList ++ s)) q = { q with contents := [], files := (s, q.contents) :: q.files } := by
  rw [readLine_tag]
  have h1 : afterPrefix "          ".toList ("       ".toList ++ s) = none := by
    unfold afterPrefix
    rw [if_neg]
    intro hp
    rw [List.isPrefixOf_iff_prefix] at hp
    have : ("       ".toList ++ "   ".toList) <+: ("       ".toList ++ s) := hp
    rw [List.prefix_append_right_inj, ← List.isPrefixOf_iff_prefix, h] at this
    cases this
  rw [h1]
  simp only [afterPrefix_append]

theorem readLine_message (id s : Str) (q : Pending) :
    readLine id (idTag id ++ ("    Message: ".toList ++ s)) q = { q with message := s } := by
  rw [readLine_tag]; rfl

theorem readLine_created (id s : Str) (q : Pending) :
    readLine id (idTag id ++ ("    Created: ".toList ++ s)) q = { q with created := s } := by
  rw [readLine_tag]; rfl

theorem readLine_user (id s : Str) (q : Pending) :
    readLine id (idTag id ++ ("    User: ".toList ++ s)) q = { q with user := s } := by
  rw [readLine_tag]; rfl

theorem readLine_version (id s : Str) (q : Pending) : readLine id (idTag id ++ ("Version ".toList ++ s)) q =
    { done := ⟨s, q.user, q.created, q.message, q.files⟩ :: q.done } := by
  rw [readLine_tag]; rfl

theorem read_fileLines (id : Str) (man : DMap) (sel : List StatInfo) (hw : wanted sel .objectManifest = true) (cs s : Str)
    (h : ("   ".toList.isPrefixOf s) = false) (q : Pending) (hq : q.contents = []) :
    (fileLines id man sel cs s).foldr (readLine id) q = { q with files := (s, (mget man cs).getD []) :: q.files } := by
  unfold fileLines
  rw [if_pos hw, List.foldr_cons]
  have : ∀ l : List Str, (l.map (fun m => idTag id ++ ("          ".toList ++ m))).foldr (readLine id) q =
      { q with contents := l } := by
    intro l
    induction l with
    | nil => cases q; simp only at hq; subst hq; rfl
    | cons m l ih => rw [List.map_cons, List.foldr_cons, ih, readLine_stored]
  rw [this, readLine_path _ _ h, ← hq]

theorem read_stateLines (id : Str) (man : DMap) (sel : List StatInfo) (hw : wanted sel .objectManifest = true) (st : DMap)
    (h : ∀ d ∈ st, ∀ s ∈ d.2, ("   ".toList.isPrefixOf s) = false) (q : Pending) (hq : q.contents = []) :
    (stateLines id man sel st).foldr (readLine id) q =
      { q with files := st.flatMap (fun e => e.2.map (fun s => (s, (mget man e.1).getD []))) ++ q.files } := by
  unfold stateLines
  induction st with
  | nil => rfl
  | cons e st ih =>
    rw [List.flatMap_cons, List.foldr_append, ih (fun d hd => h d (by simp [hd])), List.flatMap_cons, List.append_assoc]
    have : ∀ (l : List Str) (p : Pending), p.contents = [] → (∀ s ∈ l, ("   ".toList.isPrefixOf s) = false) →
        (l.flatMap (fun s => fileLines id man sel e.1 s)).foldr (readLine id) p =
          { p with files := l.map (fun s => (s, (mget man e.1).getD [])) ++ p.files } := by
      intro l
      induction l with
      | nil => intro p _ _; rfl
      | cons s l ih2 =>
        intro p hp hs
        rw [List.flatMap_cons, List.foldr_append, ih2 p hp (fun x hx => hs x (by simp [hx])),
          read_fileLines id man sel hw e.1 s (hs s (by simp)) _ (by exact hp)]
        rfl
    rw [this _ _ (by exact hq) (h e (by simp))]

/-- the lines of a version, if nothing crashes -/
def versionLines (S : StatEnv) (id : Str) (man : DMap) (sel : List StatInfo) (e : Str × Version) : List Str :=
  [idTag id ++ ("Version ".toList ++ e.1),
   idTag id ++ ("    User: ".toList ++ (e.2.userName ++ (" (".toList ++ (e.2.userAddress ++ ")".toList)))),
   idTag id ++ ("    Created: ".toList ++ S.showTime e.2.created), idTag id ++ ("    Message: ".toList ++ e.2.message)] ++
    (if wanted sel .objectVersionState then stateLines id man sel e.2.state else [])

/-- nothing is missing that is printed of a version -/
def versionWhole (m : VMeta) (sel : List StatInfo) (v : Str) : Prop :=
  m.isNil = false ∧ m.createdNil = false ∧
    (verNumber v = none → m.userNil = false ∧ m.messageNil = false ∧ (wanted sel .objectVersionState = true → m.stateNil = false))

theorem deref_none {b : Bool} {s : String} : (deref b s).2 = none ↔ b = false := by
  unfold deref
  cases b <;> simp

theorem versionStat_none {S : StatEnv} {id : Str} {man : DMap} {vm : Str → VMeta} {sel : List StatInfo} {e : Str × Version} :
    (versionStat S id man vm sel e).2 = none ↔ versionWhole (vm e.1) sel e.1 := by
  unfold versionStat versionWhole
  simp only [more_none, deref_none]
  have hp : ∀ l, (printed l).2 = none := fun _ => rfl
  simp only [hp, true_and]
  split
  · rename_i hw
    simp only [more_none, deref_none, hp, and_true]
    by_cases ho : verNumber e.1 = none <;> (simp [ho, hw]; try tauto)
  · rename_i hw
    simp only [hp, and_true]
    by_cases ho : verNumber e.1 = none <;> (simp [ho, hw]; try tauto)

theorem versionStat_fst {S : StatEnv} {id : Str} {man : DMap} {vm : Str → VMeta} {sel : List StatInfo} {e : Str × Version}
    (h : versionWhole (vm e.1) sel e.1) : (versionStat S id man vm sel e).1 = versionLines S id man sel e := by
  obtain ⟨h1, h2, h3⟩ := h
  have a1 : ((vm e.1).isNil || (decide (verNumber e.1 = none) && (vm e.1).userNil)) = false := by
    rw [h1]
    by_cases ho : verNumber e.1 = none
    · simp [(h3 ho).1]
    · simp [ho]
  have a2 : (decide (verNumber e.1 = none) && (vm e.1).messageNil) = false := by
    by_cases ho : verNumber e.1 = none
    · simp [(h3 ho).2.1]
    · simp [ho]
  unfold versionStat versionLines
  simp only [a1, a2, h2]
  by_cases hw : wanted sel .objectVersionState = true
  · have a3 : (decide (verNumber e.1 = none) && (vm e.1).stateNil) = false := by
      by_cases ho : verNumber e.1 = none
      · simp [(h3 ho).2.2 hw]
      · simp [ho]
    rw [a3, if_pos hw, if_pos hw]
    rfl
  · rw [if_neg hw, if_neg hw]
    rfl

theorem read_versionLines (S : StatEnv) (inv : Inv) (sel : List StatInfo) (hm : wanted sel .objectManifest = true)
    (hs : wanted sel .objectVersionState = true) (e : Str × Version)
    (h : ∀ d ∈ e.2.state, ∀ s ∈ d.2, ("   ".toList.isPrefixOf s) = false) (q : Pending) (hq : q.contents = [] ∧ q.files = []) :
    (versionLines S inv.id inv.manifest sel e).foldr (readLine inv.id) q =
      { done := shownVersion S.showTime inv e :: q.done } := by
  unfold versionLines
  rw [if_pos hs, List.foldr_append, read_stateLines inv.id inv.manifest sel hm _ h q hq.1]
  simp only [List.foldr_cons, List.foldr_nil, readLine_message, readLine_created, readLine_user, readLine_version]
  rw [hq.2, List.append_nil]
  rfl

theorem read_versions (S : StatEnv) (inv : Inv) (sel : List StatInfo) (hm : wanted sel .objectManifest = true)
    (hs : wanted sel .objectVersionState = true) (l : AMap Str Version)
    (h : ∀ e ∈ l, ∀ d ∈ e.2.state, ∀ s ∈ d.2, ("   ".toList.isPrefixOf s) = false) (q : Pending)
    (hq : q.contents = [] ∧ q.files = []) :
    ∃ q', (l.flatMap (versionLines S inv.id inv.manifest sel)).foldr (readLine inv.id) q = q' ∧ q'.contents = [] ∧ q'.files = [] ∧
      q'.done = l.map (shownVersion S.showTime inv) ++ q.done := by
  induction l with
  | nil => exact ⟨q, rfl, hq.1, hq.2, rfl⟩
  | cons e l ih =>
    obtain ⟨q', h1, h2, h3, h4⟩ := ih (fun x hx => h x (by simp [hx]))
    refine ⟨_, rfl, ?_⟩
    rw [List.flatMap_cons, List.foldr_append, h1, read_versionLines S inv sel hm hs e (h e (by simp)) q' ⟨h2, h3⟩]
    exact ⟨rfl, rfl, by rw [h4]; rfl⟩

/-- the lines of an object, if nothing crashes -/
def objLines (S : StatEnv) (x : ExtText) (inv : Inv) (sel : List StatInfo) : List Str :=
  [idTag inv.id ++ ("Path: ".toList ++ inv.digestAlg), idTag inv.id ++ ("Head: ".toList ++ inv.head),
    idTag inv.id ++ ("Fixity: ".toList ++ commaJoin (mkeys inv.fixity)),
    idTag inv.id ++ ("Manifest: ".toList ++ (fmtNat (inv.manifest.map (fun e => e.2.length)).sum ++
      (" files (".toList ++ (fmtNat inv.manifest.length ++ " unique files)".toList))))] ++
    ((if wanted sel .objectVersions then inv.versions.flatMap (versionLines S inv.id inv.manifest sel) else []) ++
    (if wanted sel .objectExtensionConfigs then extLines (idTag inv.id) x else []))

/-- nothing is missing that is printed of an object -/
def ObjWhole (made : Bool) (vm : Str → VMeta) (inv : Inv) (sel : List StatInfo) : Prop :=
  made = false ∧ (wanted sel .objectVersions = true → ∀ e ∈ inv.versions, versionWhole (vm e.1) sel e.1)

theorem objStat_none {S : StatEnv} {x : ExtText} {made : Bool} {inv : Inv} {vm : Str → VMeta} {sel : List StatInfo} :
    (objStat S x made inv vm sel).2 = none ↔ ObjWhole made vm inv sel := by
  unfold objStat ObjWhole
  simp only [more_none, deref_none]
  have hp : ∀ l, (printed l).2 = none := fun _ => rfl
  simp only [hp, true_and, and_true]
  split
  · rename_i hw
    simp [eachStat_none, versionStat_none, hw]
  · rename_i hw
    simp [hp, hw]

theorem objStat_fst {S : StatEnv} {x : ExtText} {made : Bool} {inv : Inv} {vm : Str → VMeta} {sel : List StatInfo}
    (h : ObjWhole made vm inv sel) : (objStat S x made inv vm sel).1 = objLines S x inv sel := by
  obtain ⟨h1, h2⟩ := h
  subst h1
  unfold objStat objLines
  simp only [more_printed, more_deref_false]
  by_cases hw : wanted sel .objectVersions = true
  · rw [if_pos hw, if_pos hw]
    have hn : ∀ e ∈ inv.versions, (versionStat S inv.id inv.manifest vm sel e).2 = none :=
      fun e he => versionStat_none.2 (h2 hw e he)
    rw [more_fst (eachStat_none.2 hn), eachStat_fst hn]
    have : inv.versions.flatMap (fun a => (versionStat S inv.id inv.manifest vm sel a).1) =
        inv.versions.flatMap (versionLines S inv.id inv.manifest sel) := by
      unfold List.flatMap
      congr 1
      exact List.map_congr_left (fun e he => versionStat_fst (h2 hw e he))
    rw [this]
    rfl
  · rw [if_neg hw, if_neg hw]
    rfl

/-! ### From lines to text -/

theorem splitOn_listing (l : List Str) : splitOn '\n' (listingText l) = l.flatMap (splitOn '\n') ++ [[]] := by
  induction l with
  | nil => rfl
  | cons a l ih =>
    have : listingText (a :: l) = a ++ '\n' :: listingText l := by simp [listingText]
    rw [this, splitOn_append, ih, List.flatMap_cons, List.append_assoc]

/-- lines without line breaks are read as they are -/
theorem flat_lines {l : List Str} (h : ∀ s ∈ l, '\n' ∉ s) : l.flatMap (splitOn '\n') = l := by
  induction l with
  | nil => rfl
  | cons a l ih =>
    rw [List.flatMap_cons, splitOn_noSep (h a (by simp)), ih (fun s hs => h s (by simp [hs]))]
    rfl

theorem read_others {id : Str} {l : List Str} (h : ∀ s ∈ l, s.head? ≠ some '[') (q : Pending) : l.foldr (readLine id) q = q := by
  induction l with
  | nil => rfl
  | cons a l ih =>
    rw [List.foldr_cons, ih (fun s hs => h s (by simp [hs])), readLine_other (h a (by simp))]

theorem tag_noBreak {id r : Str} (h : '\n' ∉ id) (hr : '\n' ∉ r) : '\n' ∉ idTag id ++ r := by
  unfold idTag
  have : '\n' ∉ "] ".toList := by decide
  simp only [List.cons_append, List.mem_cons, List.mem_append, not_or]
  exact ⟨by decide, ⟨h, this⟩, hr⟩

theorem commaJoin_noBreak {l : List Str} (h : ∀ a ∈ l, '\n' ∉ a) : '\n' ∉ commaJoin l := by
  have h0 : '\n' ∉ ", ".toList := by decide
  induction l with
  | nil => simp [commaJoin]
  | cons a l ih =>
    cases l with
    | nil => exact h a (by simp)
    | cons b l =>
      simp only [commaJoin, List.mem_append, not_or]
      exact ⟨h a (by simp), h0, ih (fun x hx => h x (List.mem_cons_of_mem _ hx))⟩

theorem fmtNat_noBreak (n : Nat) : '\n' ∉ fmtNat n := by
  intro h
  have := Nat.isDigit_of_mem_toDigits (b := 10) (by decide) (by decide) h
  exact absurd this (by decide)

/-- lines about the object that are neither of a version nor of a file -/
theorem readLine_initial (id : Str) (q : Pending) : readLine id (idTag id ++ "Initial Extension:".toList) q = q := by
  rw [readLine_tag]; rfl

theorem readLine_configs (id : Str) (q : Pending) : readLine id (idTag id ++ "Extension Configurations:".toList) q = q := by
  rw [readLine_tag]; rfl

theorem read_extLines {id : Str} (hid : '\n' ∉ id) {x : ExtText}
    (h : ∀ c ∈ x.initial :: x.configs, ∀ l ∈ splitOn '\n' c, l.head? ≠ some '[') (q : Pending) :
    ((extLines (idTag id) x).flatMap (splitOn '\n')).foldr (readLine id) q = q := by
  have hc : ∀ (l : List Str), (∀ c ∈ l, c ∈ x.configs) →
      ((l.flatMap (fun c => ["---".toList, c])).flatMap (splitOn '\n')).foldr (readLine id) q = q := by
    intro l hl
    refine read_others ?_ q
    intro s hs
    obtain ⟨y, hy, hs⟩ := List.mem_flatMap.1 hs
    obtain ⟨c, hc, hy⟩ := List.mem_flatMap.1 hy
    simp only [List.mem_cons, List.not_mem_nil, or_false] at hy
    rcases hy with rfl | rfl
    · rw [show splitOn '\n' "---".toList = ["---".toList] by decide, List.mem_singleton] at hs
      subst hs; decide
    · exact h _ (List.mem_cons_of_mem _ (hl _ hc)) s hs
  unfold extLines
  rw [List.flatMap_append, List.foldr_append, hc _ (fun _ hc => hc)]
  simp only [List.flatMap_cons, List.flatMap_nil, List.append_nil, List.foldr_append]
  rw [splitOn_noSep (tag_noBreak hid (by decide)), splitOn_noSep (tag_noBreak hid (by decide)),
    show splitOn '\n' "---".toList = ["---".toList] by decide]
  simp only [List.foldr_cons, List.foldr_nil, readLine_configs]
  have e := readLine_other (id := id) (l := "---".toList) (by decide) q
  rw [e, read_others (h _ (by simp)), e, readLine_initial]

theorem read_heading {id : Str} (s r : Str) (hs : s = "Path: ".toList ∨ s = "Head: ".toList ∨ s = "Fixity: ".toList ∨ s = "Manifest: ".toList)
    (q : Pending) : readLine id (idTag id ++ (s ++ r)) q = q := by
  rw [readLine_tag]
  rcases hs with rfl | rfl | rfl | rfl <;> rfl

theorem read_objLines {S : StatEnv} {x : ExtText} {inv : Inv} {sel : List StatInfo} (h : PlainText S x inv)
    (hv : wanted sel .objectVersions = true) (hs : wanted sel .objectVersionState = true)
    (hm : wanted sel .objectManifest = true) :
    (((objLines S x inv sel).flatMap (splitOn '\n') ++ [[]]).foldr (readLine inv.id) {}).done =
      inv.versions.map (shownVersion S.showTime inv) := by
  unfold objLines
  rw [if_pos hv, List.flatMap_append, List.flatMap_append, List.foldr_append, List.foldr_append, List.foldr_append]
  have e0 : List.foldr (readLine inv.id) ({} : Pending) [[]] = {} := readLine_other (by decide) _
  rw [e0]
  have e1 : List.foldr (readLine inv.id) ({} : Pending)
      ((if wanted sel .objectExtensionConfigs = true then extLines (idTag inv.id) x else []).flatMap (splitOn '\n')) = {} := by
    split
    · exact read_extLines h.id h.config _
    · rfl
  rw [e1]
  have hb : ∀ e ∈ inv.versions, ∀ l ∈ versionLines S inv.id inv.manifest sel e, '\n' ∉ l := by
    intro e he l hl
    obtain ⟨g1, g2, g3, g4, g5⟩ := h.version e he
    unfold versionLines at hl
    rw [if_pos hs, List.mem_append] at hl
    rcases hl with hl | hl
    · simp only [List.mem_cons, List.not_mem_nil, or_false] at hl
      have k1 : '\n' ∉ "Version ".toList := by decide
      have k2 : '\n' ∉ "    User: ".toList := by decide
      have k3 : '\n' ∉ " (".toList := by decide
      have k4 : '\n' ∉ ")".toList := by decide
      have k5 : '\n' ∉ "    Created: ".toList := by decide
      have k6 : '\n' ∉ "    Message: ".toList := by decide
      rcases hl with rfl | rfl | rfl | rfl <;> refine tag_noBreak h.id ?_ <;> simp only [List.mem_append, not_or]
      · exact ⟨k1, g1⟩
      · exact ⟨k2, g2, k3, g3, k4⟩
      · exact ⟨k5, g4⟩
      · exact ⟨k6, g5⟩
    · unfold stateLines at hl
      obtain ⟨d, hd, hl⟩ := List.mem_flatMap.1 hl
      obtain ⟨s, hs', hl⟩ := List.mem_flatMap.1 hl
      unfold fileLines at hl
      rw [if_pos hm, List.mem_cons] at hl
      rcases hl with rfl | hl
      · refine tag_noBreak h.id ?_
        simp only [List.mem_append, not_or]
        exact ⟨by decide, (h.path e he d hd s hs').1⟩
      · obtain ⟨m, hm', rfl⟩ := List.mem_map.1 hl
        refine tag_noBreak h.id ?_
        simp only [List.mem_append, not_or]
        refine ⟨by decide, ?_⟩
        cases hg : mget inv.manifest d.1 with
        | none => rw [hg] at hm'; cases hm'
        | some ms =>
          rw [hg] at hm'
          exact h.stored _ (mem_of_mget hg) m hm'
  rw [flat_lines (l := inv.versions.flatMap _) (fun l hl => by
    obtain ⟨e, he, hl⟩ := List.mem_flatMap.1 hl
    exact hb e he l hl)]
  obtain ⟨q', h1, _, _, h4⟩ := read_versions S inv sel hm hs inv.versions
    (fun e he d hd s hs' => (h.path e he d hd s hs').2) {} ⟨rfl, rfl⟩
  rw [h1]
  have hf : '\n' ∉ commaJoin (mkeys inv.fixity) := commaJoin_noBreak h.fixity
  have b1 : '\n' ∉ "Path: ".toList := by decide
  have b2 : '\n' ∉ "Head: ".toList := by decide
  have b3 : '\n' ∉ "Fixity: ".toList := by decide
  have b4 : '\n' ∉ "Manifest: ".toList := by decide
  have b5 : '\n' ∉ " files (".toList := by decide
  have b6 : '\n' ∉ " unique files)".toList := by decide
  rw [flat_lines (by
    intro l hl
    simp only [List.mem_cons, List.not_mem_nil, or_false] at hl
    rcases hl with rfl | rfl | rfl | rfl <;> refine tag_noBreak h.id ?_ <;> simp only [List.mem_append, not_or]
    · exact ⟨b1, h.alg⟩
    · exact ⟨b2, h.head⟩
    · exact ⟨b3, hf⟩
    · exact ⟨b4, fmtNat_noBreak _, b5, fmtNat_noBreak _, b6⟩)]
  simp only [List.foldr_cons, List.foldr_nil]
  rw [read_heading _ _ (by simp), read_heading _ _ (by simp), read_heading _ _ (by simp), read_heading _ _ (by simp), h4]
  simp

/-- the folder of the object asked for, and what loading it gives -/
def statTarget (S : StatEnv) (fs : FS) (path id : Str) : Str × Res (Inv × List Fnd) :=
  if path ≠ [] then (path, loadByFolder S.w S.env S.plain S.blank fs path)
  else ((rootPath S.ls id).1, loadByID S.w S.env S.plain S.blank S.ls fs id)

theorem rootStat_one {S : StatEnv} {fs : FS} {t : FDir} {path id : Str} {sel : List StatInfo} (h : path ≠ [] ∨ id ≠ []) :
    rootStat S fs t path id sel = (printed (["Storage Root".toList, "OCFL Version: ".toList ++ S.version] ++
      (if wanted sel .extensionConfigs then extLines [] S.rootExt else []))).more
      (oneObjStat S fs sel (path ++ id) (statTarget S fs path id).1 (statTarget S fs path id).2) := by
  have hn : ¬ (path = [] ∧ id = []) := by
    rintro ⟨h1, h2⟩
    rcases h with h | h
    · exact h h1
    · exact h h2
  unfold rootStat statTarget
  simp only [if_neg hn]
  by_cases hp : path ≠ []
  · simp only [if_pos hp]
  · simp only [if_neg hp]

theorem rootStat_one_ok {S : StatEnv} {fs : FS} {t : FDir} {path id : Str} {sel : List StatInfo} (h : path ≠ [] ∨ id ≠ []) {inv : Inv}
    {f : List Fnd} (hl : (statTarget S fs path id).2 = .ok (inv, f)) :
    rootStat S fs t path id sel = ((["Storage Root".toList, "OCFL Version: ".toList ++ S.version] ++
      (if wanted sel .extensionConfigs then extLines [] S.rootExt else [])) ++ (("Object: ".toList ++ (path ++ id)) ::
        (folderStat S fs (statTarget S fs path id).1 inv sel).1), (folderStat S fs (statTarget S fs path id).1 inv sel).2) := by
  rw [rootStat_one h, hl]
  rfl

theorem plain_extLines {x : ExtText} (h : ∀ c ∈ x.initial :: x.configs, ∀ l ∈ splitOn '\n' c, l.head? ≠ some '[') :
    ∀ s ∈ (extLines [] x).flatMap (splitOn '\n'), s.head? ≠ some '[' := by
  intro s hs
  obtain ⟨y, hy, hs⟩ := List.mem_flatMap.1 hs
  unfold extLines at hy
  have e3 : splitOn '\n' "---".toList = ["---".toList] := by decide
  rcases List.mem_append.1 hy with hy | hy
  · simp only [List.nil_append, List.mem_cons, List.not_mem_nil, or_false] at hy
    rcases hy with rfl | rfl | rfl | rfl | rfl
    · rw [splitOn_noSep (by decide), List.mem_singleton] at hs; subst hs; decide
    · rw [e3, List.mem_singleton] at hs; subst hs; decide
    · exact h _ (by simp) s hs
    · rw [e3, List.mem_singleton] at hs; subst hs; decide
    · rw [splitOn_noSep (by decide), List.mem_singleton] at hs; subst hs; decide
  · obtain ⟨c, hc, hy⟩ := List.mem_flatMap.1 hy
    simp only [List.mem_cons, List.not_mem_nil, or_false] at hy
    rcases hy with rfl | rfl
    · rw [e3, List.mem_singleton] at hs; subst hs; decide
    · exact h _ (List.mem_cons_of_mem _ hc) s hs

/-- **C147, in full**: two objects shown alike have the same versions with the same files. -/
def C147_full : Prop := ∀ (S : StatEnv) (fs fs' : FS) (t t' : FDir) (path id : Str) (inv inv' : Inv) (f f' : List Fnd),
  (path ≠ [] ∨ id ≠ []) → (statTarget S fs path id).2 = .ok (inv, f) → (statTarget S fs' path id).2 = .ok (inv', f') →
  (rootStat S fs t path id []).2 = none → (rootStat S fs' t' path id []).2 = none →
  listingText (rootStat S fs t path id []).1 = listingText (rootStat S fs' t' path id []).1 →
  inv.versions.map (shownVersion S.showTime inv) = inv'.versions.map (shownVersion S.showTime inv')

/-- **C147, the part that holds**: if no text has a line break and no path begins with three blanks, the versions of the object
asked for, with user, time, message, logical paths and the files they are stored in, can be read off the text printed. -/
theorem C147_read_partial {S : StatEnv} {fs : FS} {t : FDir} {path id : Str} {sel : List StatInfo} {inv : Inv} {f : List Fnd}
    (one : path ≠ [] ∨ id ≠ []) (hl : (statTarget S fs path id).2 = .ok (inv, f)) (hn : (rootStat S fs t path id sel).2 = none)
    (hv : wanted sel .objectVersions = true) (hs : wanted sel .objectVersionState = true)
    (hm : wanted sel .objectManifest = true) (hr : PlainRoot S) (hp : '\n' ∉ path) (hi : '\n' ∉ id)
    (h : PlainText S (S.objExt (statTarget S fs path id).1) inv) :
    readListing inv.id (listingText (rootStat S fs t path id sel).1) = inv.versions.map (shownVersion S.showTime inv) := by
  rw [rootStat_one_ok one hl] at hn ⊢
  have hw := objStat_none.1 hn
  simp only
  unfold folderStat
  rw [objStat_fst hw]
  unfold readListing
  rw [splitOn_listing, List.flatMap_append, List.append_assoc, List.foldr_append, List.flatMap_cons, List.append_assoc,
    List.foldr_append]
  have key := read_objLines (sel := sel) h hv hs hm
  rw [read_others (l := splitOn '\n' ("Object: ".toList ++ (path ++ id))) (by
    intro s hs'
    have b : '\n' ∉ "Object: ".toList := by decide
    rw [splitOn_noSep (by simp only [List.mem_append, not_or]; exact ⟨b, hp, hi⟩), List.mem_singleton] at hs'
    subst hs'
    simp)]
  rw [read_others, key]
  intro s hs'
  rw [List.flatMap_append, List.mem_append] at hs'
  rcases hs' with hs' | hs'
  · have b : '\n' ∉ "OCFL Version: ".toList := by decide
    rw [flat_lines (by
      intro l hl'
      simp only [List.mem_cons, List.not_mem_nil, or_false] at hl'
      rcases hl' with rfl | rfl
      · decide
      · simp only [List.mem_append, not_or]; exact ⟨b, hr.version⟩)] at hs'
    simp only [List.mem_cons, List.not_mem_nil, or_false] at hs'
    rcases hs' with rfl | rfl
    · decide
    · simp
  · split at hs'
    · exact plain_extLines hr.config s hs'
    · cases hs'

/-- **C147, the part that holds**: such objects are not shown alike unless they have the same versions with the same files. -/
theorem C147_same_partial {S : StatEnv} {fs fs' : FS} {t t' : FDir} {path id : Str} {sel : List StatInfo} {inv inv' : Inv}
    {f f' : List Fnd} (one : path ≠ [] ∨ id ≠ []) (hl : (statTarget S fs path id).2 = .ok (inv, f))
    (hl' : (statTarget S fs' path id).2 = .ok (inv', f')) (hn : (rootStat S fs t path id sel).2 = none)
    (hn' : (rootStat S fs' t' path id sel).2 = none)
    (hv : wanted sel .objectVersions = true) (hs : wanted sel .objectVersionState = true)
    (hm : wanted sel .objectManifest = true) (hr : PlainRoot S) (hp : '\n' ∉ path) (hi : '\n' ∉ id)
    (h : PlainText S (S.objExt (statTarget S fs path id).1) inv) (h' : PlainText S (S.objExt (statTarget S fs' path id).1) inv')
    (hid : inv.id = inv'.id)
    (he : listingText (rootStat S fs t path id sel).1 = listingText (rootStat S fs' t' path id sel).1) :
    inv.versions.map (shownVersion S.showTime inv) = inv'.versions.map (shownVersion S.showTime inv') := by
  rw [← C147_read_partial one hl hn hv hs hm hr hp hi h, ← C147_read_partial one hl' hn' hv hs hm hr hp hi h', he, hid]

/-! ### Examples -/

/-- `ockInv` with two names for its file -/
def statTwo : Inv :=
  { ockInv with
    versions := [("v1".toList, ⟨"t".toList, "m".toList, "u".toList, "mailto:u@x".toList, [("d1".toList, ["b".toList, "a".toList])]⟩)] }

/-- `ockInv` with a message that looks like the second name -/
def forged : Inv :=
  { ockInv with
    versions := [("v1".toList, ⟨"t".toList, "m\n[info:x]        b\n[info:x]           v1/content/a".toList, "u".toList,
      "mailto:u@x".toList, [("d1".toList, ["a".toList])]⟩)] }

/-- `ockInv` with a further version, whose name has no number -/
def oddVersion : Inv := { ockInv with versions := ("vx".toList, ⟨[], [], [], [], []⟩) :: ockInv.versions }

def statWorld : World :=
  { ockWorld with
    dec := fun b =>
      if b = [9] then some { inv := ockInv, vmeta := [] }
      else if b = [8] then some { inv := statTwo, vmeta := [] }
      else if b = [7] then some { inv := forged, vmeta := [] }
      else if b = [6] then some { inv := oddVersion, vmeta := [("vx".toList, { userNil := true })] }
      else none }

def statEnv : StatEnv :=
  { w := statWorld, env := exEnv, plain := false, blank := ockInv, ls := [], showTime := fun t => t, errText := fun _ => "?".toList,
    version := "1.1".toList, rootExt := ⟨"{}".toList, ["{}".toList]⟩, objExt := fun _ => ⟨"{}".toList, ["{}".toList]⟩ }

/-- the object `o` with the given inventory file -/
def statDisk (b : Bytes) : FS :=
  [("o/0=ocfl_object_1.1".toList, asBytes "ocfl_object_1.1\n".toList),
   ("o/inventory.json".toList, b), ("o/inventory.json.sha512".toList, asBytes "ad inventory.json".toList)]

theorem statDisk_9 : (statTarget statEnv (statDisk [9]) "o".toList []).2 = .ok (ockInv, []) := by decide
theorem statDisk_8 : (statTarget statEnv (statDisk [8]) "o".toList []).2 = .ok (statTwo, []) := by decide
theorem statDisk_7 : (statTarget statEnv (statDisk [7]) "o".toList []).2 = .ok (forged, []) := by decide

set_option maxRecDepth 8000 in
theorem stat_alike : (rootStat statEnv (statDisk [8]) .nil "o".toList [] []).2 = none ∧
    (rootStat statEnv (statDisk [7]) .nil "o".toList [] []).2 = none ∧
    listingText (rootStat statEnv (statDisk [8]) .nil "o".toList [] []).1 =
      listingText (rootStat statEnv (statDisk [7]) .nil "o".toList [] []).1 := by
  rw [rootStat_one_ok (Or.inl (by decide)) statDisk_8, rootStat_one_ok (Or.inl (by decide)) statDisk_7]
  refine ⟨by decide, by decide, by decide⟩

/-- **C147 is violated**: a message of several lines passes for a file of the version. -/
theorem C147_full_fails : ¬ C147_full := by
  intro hf
  have := hf statEnv (statDisk [8]) (statDisk [7]) .nil .nil "o".toList [] statTwo forged [] [] (Or.inl (by decide))
    statDisk_8 statDisk_7 stat_alike.1 stat_alike.2.1 stat_alike.2.2
  exact absurd this (by decide)

theorem ock_plainText : PlainText statEnv ⟨"{}".toList, ["{}".toList]⟩ ockInv := by
  refine ⟨by decide, by decide, by decide, by decide, by decide, by decide, by decide, by decide⟩

theorem stat_plainRoot : PlainRoot statEnv := ⟨by decide, by decide⟩

/-- the hypotheses are met by the object of the examples: its one version is read off the listing -/
example : readListing "info:x".toList (listingText (rootStat statEnv (statDisk [9]) .nil "o".toList [] []).1) =
    [⟨"v1".toList, "u (mailto:u@x)".toList, "t".toList, "m".toList, [("a".toList, ["v1/content/a".toList])]⟩] :=
  C147_read_partial (inv := ockInv) (f := []) (Or.inl (by decide)) statDisk_9 (by
    rw [rootStat_one_ok (Or.inl (by decide)) statDisk_9]; decide) rfl rfl rfl stat_plainRoot (by decide) (by decide)
    ock_plainText

/-! ## C148: what the heading says -/

/-- **C148, in full**: the line labelled `Path` tells where the object is. -/
def C148_full : Prop := ∀ (S : StatEnv) (fs : FS) (t : FDir) (path id : Str) (sel : List StatInfo) (inv : Inv) (f : List Fnd),
  (path ≠ [] ∨ id ≠ []) → (statTarget S fs path id).2 = .ok (inv, f) → (rootStat S fs t path id sel).2 = none →
  (idTag inv.id ++ ("Path: ".toList ++ (statTarget S fs path id).1)) ∈ (rootStat S fs t path id sel).1

/-- **C148, the part that holds**: head, fixity algorithms, the number of stored files and the number of different contents are
told, for the object asked for, whatever is selected. -/
theorem C148_heading_partial {S : StatEnv} {fs : FS} {t : FDir} {path id : Str} {sel : List StatInfo} {inv : Inv} {f : List Fnd}
    (one : path ≠ [] ∨ id ≠ []) (hl : (statTarget S fs path id).2 = .ok (inv, f)) (hn : (rootStat S fs t path id sel).2 = none) :
    (idTag inv.id ++ ("Head: ".toList ++ inv.head)) ∈ (rootStat S fs t path id sel).1 ∧
    (idTag inv.id ++ ("Fixity: ".toList ++ commaJoin (mkeys inv.fixity))) ∈ (rootStat S fs t path id sel).1 ∧
    (idTag inv.id ++ ("Manifest: ".toList ++ (fmtNat (inv.manifest.flatMap (·.2)).length ++
      (" files (".toList ++ (fmtNat (mkeys inv.manifest).length ++ " unique files)".toList))))) ∈ (rootStat S fs t path id sel).1 ∧
    ("Object: ".toList ++ (path ++ id)) ∈ (rootStat S fs t path id sel).1 := by
  rw [rootStat_one_ok one hl] at hn ⊢
  have hw := objStat_none.1 hn
  simp only
  unfold folderStat
  rw [objStat_fst hw]
  have e1 : (inv.manifest.flatMap (·.2)).length = (inv.manifest.map (fun e => e.2.length)).sum := List.length_flatMap
  have e2 : (mkeys inv.manifest).length = inv.manifest.length := by simp [mkeys]
  rw [e1, e2]
  unfold objLines
  refine ⟨?_, ?_, ?_, ?_⟩
  · exact List.mem_append_right _ (.tail _ (.tail _ (.head _)))
  · exact List.mem_append_right _ (.tail _ (.tail _ (.tail _ (.head _))))
  · exact List.mem_append_right _ (.tail _ (.tail _ (.tail _ (.tail _ (.head _)))))
  · exact List.mem_append_right _ (.head _)

/-- What is printed as path is the digest algorithm, wherever the object is. -/
theorem C148_path {S : StatEnv} {x : ExtText} {made : Bool} {inv : Inv} {vm : Str → VMeta} {sel : List StatInfo} :
    (objStat S x made inv vm sel).1.head? = some (idTag inv.id ++ ("Path: ".toList ++ inv.digestAlg)) := rfl

/-- **C148 is violated**: the object in the folder `o` is shown with the path `sha512`. -/
theorem C148_full_fails : ¬ C148_full := by
  intro hf
  have := hf statEnv (statDisk [9]) .nil "o".toList [] [] ockInv [] (Or.inl (by decide)) statDisk_9 (by
    rw [rootStat_one_ok (Or.inl (by decide)) statDisk_9]; decide)
  rw [rootStat_one_ok (Or.inl (by decide)) statDisk_9] at this
  exact absurd this (by decide)

example : (idTag "info:x".toList ++ "Manifest: 1 files (1 unique files)".toList) ∈
    (rootStat statEnv (statDisk [9]) .nil "o".toList [] []).1 :=
  (C148_heading_partial (inv := ockInv) (f := []) (Or.inl (by decide)) statDisk_9 (by
    rw [rootStat_one_ok (Or.inl (by decide)) statDisk_9]; decide)).2.2.1

/-! ## C149: the information asked for is shown -/

/-- the line for a logical path -/
def pathLine (id s : Str) : Str := idTag id ++ ("       ".toList ++ s)

/-- the line for a stored file -/
def storedLine (id m : Str) : Str := idTag id ++ ("          ".toList ++ m)

/-- **C149, in full**: of the object asked for, `ObjectVersionState` shows the logical paths of every version, `ObjectManifest` the
stored files; the list of object folders is shown only if `ObjectFolders` is asked for. -/
def C149_full : Prop := ∀ (S : StatEnv) (fs : FS) (t : FDir) (path id : Str) (sel : List StatInfo) (inv : Inv) (f : List Fnd),
  (statTarget S fs path id).2 = .ok (inv, f) → (rootStat S fs t path id sel).2 = none →
  ((path ≠ [] ∨ id ≠ []) → .objectVersionState ∈ sel → ∀ e ∈ inv.versions, ∀ d ∈ e.2.state, ∀ s ∈ d.2,
    pathLine inv.id s ∈ (rootStat S fs t path id sel).1) ∧
  ((path ≠ [] ∨ id ≠ []) → .objectManifest ∈ sel → ∀ e ∈ inv.manifest, ∀ m ∈ e.2,
    storedLine inv.id m ∈ (rootStat S fs t path id sel).1) ∧
  (sel ≠ [] → .objectFolders ∉ sel → ∀ l ∈ (rootStat S fs t path id sel).1, hasPrefix l "Object Folders: ".toList = false)

theorem versionLines_shown {S : StatEnv} {inv : Inv} {sel : List StatInfo} (hs : wanted sel .objectVersionState = true)
    {e : Str × Version} {d : Str × List Str} (hd : d ∈ e.2.state) {s : Str} (h : s ∈ d.2) :
    pathLine inv.id s ∈ versionLines S inv.id inv.manifest sel e ∧
    (wanted sel .objectManifest = true → ∀ m ∈ (mget inv.manifest d.1).getD [], storedLine inv.id m ∈ versionLines S inv.id inv.manifest sel e) := by
  unfold versionLines stateLines
  rw [if_pos hs]
  constructor
  · exact List.mem_append_right _ (List.mem_flatMap.2 ⟨d, hd, List.mem_flatMap.2 ⟨s, h, .head _⟩⟩)
  · intro hm m hx
    refine List.mem_append_right _ (List.mem_flatMap.2 ⟨d, hd, List.mem_flatMap.2 ⟨s, h, ?_⟩⟩)
    unfold fileLines
    rw [if_pos hm]
    exact .tail _ (List.mem_map.2 ⟨m, hx, rfl⟩)

/-- **C149, the part that holds**: with `ObjectVersions` asked for as well, `ObjectVersionState` shows the logical paths, and with
both, `ObjectManifest` shows the files each of them is stored in. -/
theorem C149_shown_partial {S : StatEnv} {fs : FS} {t : FDir} {path id : Str} {sel : List StatInfo} {inv : Inv} {f : List Fnd}
    (one : path ≠ [] ∨ id ≠ []) (hl : (statTarget S fs path id).2 = .ok (inv, f)) (hn : (rootStat S fs t path id sel).2 = none)
    (hv : wanted sel .objectVersions = true) {e : Str × Version} (he : e ∈ inv.versions) :
    (idTag inv.id ++ ("Version ".toList ++ e.1)) ∈ (rootStat S fs t path id sel).1 ∧
    (wanted sel .objectVersionState = true → ∀ d ∈ e.2.state, ∀ s ∈ d.2, pathLine inv.id s ∈ (rootStat S fs t path id sel).1 ∧
      (wanted sel .objectManifest = true → ∀ m ∈ (mget inv.manifest d.1).getD [],
        storedLine inv.id m ∈ (rootStat S fs t path id sel).1)) := by
  rw [rootStat_one_ok one hl] at hn ⊢
  have hw := objStat_none.1 hn
  simp only
  unfold folderStat
  rw [objStat_fst hw]
  have key : ∀ l ∈ versionLines S inv.id inv.manifest sel e, l ∈ ((["Storage Root".toList, "OCFL Version: ".toList ++ S.version] ++
      (if wanted sel .extensionConfigs then extLines [] S.rootExt else [])) ++ (("Object: ".toList ++ (path ++ id)) ::
        objLines S (S.objExt (statTarget S fs path id).1) inv sel)) := by
    intro l hl'
    refine List.mem_append_right _ (.tail _ ?_)
    unfold objLines
    rw [if_pos hv]
    exact List.mem_append_right _ (List.mem_append_left _ (List.mem_flatMap.2 ⟨e, he, hl'⟩))
  refine ⟨key _ (.head _), fun hs d hd s h => ?_⟩
  obtain ⟨h1, h2⟩ := versionLines_shown (S := S) (inv := inv) hs hd h
  exact ⟨key _ h1, fun hm m hx => key _ (h2 hm m hx)⟩

/-- Without `ObjectVersions` nothing of the versions is shown, whatever else is asked for. -/
theorem C149_hidden {S : StatEnv} {x : ExtText} {inv : Inv} {vm vm' : Str → VMeta} {vs : AMap Str Version} {sel : List StatInfo}
    (hv : wanted sel .objectVersions = false) (made : Bool) :
    objStat S x made { inv with versions := vs } vm sel = objStat S x made inv vm' sel := by
  unfold objStat
  rw [if_neg (by simp [hv]), if_neg (by simp [hv])]

/-- the selection matters only through five of the nine infos, and one for whole storage roots -/
def sameSel (sel sel' : List StatInfo) : Prop :=
  ∀ i ∈ [StatInfo.extensionConfigs, .objects, .objectVersions, .objectVersionState, .objectManifest, .objectExtensionConfigs],
    wanted sel i = wanted sel' i

theorem fileLines_same {sel sel' : List StatInfo} (h : sameSel sel sel') (id : Str) (man : DMap) :
    fileLines id man sel = fileLines id man sel' := by
  funext cs s
  unfold fileLines
  rw [h .objectManifest (by decide)]

theorem versionStat_same {sel sel' : List StatInfo} (h : sameSel sel sel') (S : StatEnv) (id : Str) (man : DMap) (vm : Str → VMeta) :
    versionStat S id man vm sel = versionStat S id man vm sel' := by
  funext e
  unfold versionStat stateLines
  rw [h .objectVersionState (by decide), fileLines_same h]

theorem objStat_same {sel sel' : List StatInfo} (h : sameSel sel sel') (S : StatEnv) (x : ExtText) (made : Bool) (inv : Inv)
    (vm : Str → VMeta) : objStat S x made inv vm sel = objStat S x made inv vm sel' := by
  unfold objStat
  rw [h .objectVersions (by decide), h .objectExtensionConfigs (by decide), versionStat_same h]

theorem rootStat_same {sel sel' : List StatInfo} (h : sameSel sel sel') (S : StatEnv) (fs : FS) (t : FDir) (path id : Str) :
    rootStat S fs t path id sel = rootStat S fs t path id sel' := by
  have h1 : (rootObjStat S fs sel) = rootObjStat S fs sel' := by
    funext folder
    unfold rootObjStat folderStat
    split
    · rfl
    · rw [objStat_same h]
  have h2 : ∀ n f l, oneObjStat S fs sel n f l = oneObjStat S fs sel' n f l := by
    intro n f l
    unfold oneObjStat folderStat
    split
    · rfl
    · rfl
    · rw [objStat_same h]
  unfold rootStat
  rw [h .extensionConfigs (by decide), h .objects (by decide), h1]
  simp only [h2]

/-- `ObjectFolders`, `Extension` and `ObjectExtension` make no difference to anything else asked for. -/
theorem C149_no_effect {i : StatInfo} (hi : i = .objectFolders ∨ i = .extension ∨ i = .objectExtension) {sel : List StatInfo}
    (hs : sel ≠ []) (S : StatEnv) (fs : FS) (t : FDir) (path id : Str) :
    rootStat S fs t path id (i :: sel) = rootStat S fs t path id sel := by
  refine rootStat_same ?_ S fs t path id
  intro j hj
  unfold wanted
  have : j ≠ i := by
    rintro rfl
    rcases hi with rfl | rfl | rfl <;> revert hj <;> decide
  simp [this, hs]

/-- each name stands for its info, in upper or lower case and with blanks around; other names are refused -/
theorem C149_names (s : Str) : (∃ e ∈ statInfoNames, toLower e.1 = toLower (trimSpace s) ∧ statInfos [s] = some [e.2]) ∨
    ((∀ e ∈ statInfoNames, toLower e.1 ≠ toLower (trimSpace s)) ∧ ∀ l r, statInfos (l ++ s :: r) = none) := by
  by_cases h : ∃ e ∈ statInfoNames, toLower e.1 = toLower (trimSpace s)
  · obtain ⟨e, he, hx⟩ := h
    refine Or.inl ⟨e, he, hx, ?_⟩
    have : ∀ e ∈ statInfoNames, statInfoNames.filter (fun x => decide (toLower x.1 = toLower e.1)) = [e] := by decide
    unfold statInfos
    rw [← hx, this e he]
    rfl
  · refine Or.inr ⟨fun e he hx => h ⟨e, he, hx⟩, fun l r => ?_⟩
    induction l with
    | nil =>
      have : statInfoNames.filter (fun x => decide (toLower x.1 = toLower (trimSpace s))) = [] :=
        List.filter_eq_nil_iff.2 (fun e he => by simpa using fun hx => h ⟨e, he, hx⟩)
      rw [List.nil_append]
      unfold statInfos
      rw [this]
    | cons a l ih =>
      rw [List.cons_append]
      unfold statInfos
      rw [ih]
      split <;> rfl

/-- **C149 is violated**: `ObjectVersionState` alone shows no path; so does `ObjectManifest` show no stored file. -/
theorem C149_full_fails : ¬ C149_full := by
  intro hf
  have := (hf statEnv (statDisk [9]) .nil "o".toList [] [.objectVersionState] ockInv [] statDisk_9 (by
    rw [rootStat_one_ok (Or.inl (by decide)) statDisk_9]; decide)).1 (Or.inl (by decide)) (by decide)
    ("v1".toList, ⟨"t".toList, "m".toList, "u".toList, "mailto:u@x".toList, [("d1".toList, ["a".toList])]⟩) (by decide)
    ("d1".toList, ["a".toList]) (by decide) "a".toList (by decide)
  rw [rootStat_one_ok (Or.inl (by decide)) statDisk_9] at this
  exact absurd this (by decide)

example : pathLine "info:x".toList "a".toList ∈
    (rootStat statEnv (statDisk [9]) .nil "o".toList [] [.objectVersions, .objectVersionState]).1 :=
  ((C149_shown_partial (inv := ockInv) (f := []) (Or.inl (by decide)) statDisk_9 (by
    rw [rootStat_one_ok (Or.inl (by decide)) statDisk_9]; decide) (by decide)
    (e := ("v1".toList, ⟨"t".toList, "m".toList, "u".toList, "mailto:u@x".toList, [("d1".toList, ["a".toList])]⟩)) (by decide)).2
      (by decide) ("d1".toList, ["a".toList]) (by decide) "a".toList (by decide)).1

example : statInfos [" OBJECTVERSIONS".toList, "objects".toList] = some [.objectVersions, .objects] ∧
    statInfos ["versions".toList] = none := by decide

/-! ## C150: every object is shown, and failure is noticed -/

/-- what is known about an object that could be loaded and has an inventory file -/
theorem loaded_meta {S : StatEnv} {fs : FS} {folder : Str} {inv : Inv} {f : List Fnd}
    (hl : loadByFolder S.w S.env S.plain S.blank fs folder = .ok (inv, f)) (hm : noInventory fs folder = false) :
    ∀ e ∈ inv.versions, (folderMeta S fs folder e.1).isNil = false ∧
      (verNumber e.1 ≠ none → (folderMeta S fs folder e.1).createdNil = false) ∧
      (verNumber e.1 = none → (folderMeta S fs folder e.1).stateNil = false) := by
  unfold loadByFolder at hl
  split at hl
  · unfold loadInventory at hl
    split at hl
    · rename_i hb
      simp [noInventory, hb] at hm
    · obtain ⟨b, r, x, g, h1, h2, h3, _, h5, _⟩ := loadRoot_ok hl
      have hfm : folderMeta S fs folder = r.vm := by
        unfold folderMeta
        rw [h1]
        simp only [h2]
      rw [hfm]
      have hnc : ¬ Crashes r := fun hc => by
        obtain ⟨e, he⟩ := (C40_crash_iff S.env r).2 hc
        rw [h3] at he; cases he
      obtain ⟨_, _, _, _, _, hx⟩ := finalize_ok (inv := x.1) (fs := x.2) h3
      subst h5
      rw [hx]
      intro e he
      refine ⟨?_, ?_, ?_⟩
      · by_contra hc
        exact hnc (Or.inr (Or.inl ⟨e.1, e.2, he, by simpa using hc⟩))
      · intro hn
        by_contra hc
        exact hnc (Or.inr (Or.inr (Or.inl ⟨e.1, e.2, he, Option.ne_none_iff_exists'.1 hn, Or.inl (by simpa using hc)⟩)))
      · intro hn
        by_contra hc
        exact hnc (Or.inr (Or.inr (Or.inr (Or.inl ⟨e.1, e.2, he, hn, by simpa using hc⟩))))
  · cases hl

/-- **C150, exactly when showing an object crashes**: it has no inventory file, or a version whose name has no number lacks user,
time or message. -/
theorem C150_object_iff {S : StatEnv} {fs : FS} {folder : Str} {inv : Inv} {f : List Fnd} {sel : List StatInfo}
    (hl : loadByFolder S.w S.env S.plain S.blank fs folder = .ok (inv, f)) :
    (folderStat S fs folder inv sel).2 = none ↔ mget fs (under folder rootInvPath) ≠ none ∧
      (wanted sel .objectVersions = true → ∀ e ∈ inv.versions, verNumber e.1 = none →
        (folderMeta S fs folder e.1).userNil = false ∧ (folderMeta S fs folder e.1).createdNil = false ∧
        (folderMeta S fs folder e.1).messageNil = false) := by
  have hi : noInventory fs folder = false ↔ mget fs (under folder rootInvPath) ≠ none := by
    unfold noInventory
    rw [mget_subFS]
    simp
  unfold folderStat
  rw [objStat_none, ← hi]
  unfold ObjWhole versionWhole
  constructor
  · rintro ⟨h1, h2⟩
    refine ⟨h1, fun hv e he hn => ?_⟩
    obtain ⟨_, a2, a3⟩ := h2 hv e he
    exact ⟨(a3 hn).1, a2, (a3 hn).2.1⟩
  · rintro ⟨h1, h2⟩
    refine ⟨h1, fun hv e he => ?_⟩
    obtain ⟨b1, b2, b3⟩ := loaded_meta hl h1 e he
    refine ⟨b1, ?_, fun hn => ?_⟩
    · by_cases hn : verNumber e.1 = none
      · exact (h2 hv e he hn).2.1
      · exact b2 hn
    · exact ⟨(h2 hv e he hn).1, (h2 hv e he hn).2.2, fun _ => b3 hn⟩

theorem rootStat_whole (S : StatEnv) (fs : FS) (t : FDir) (sel : List StatInfo) :
    rootStat S fs t [] [] sel = (printed (["Storage Root".toList, "OCFL Version: ".toList ++ S.version] ++
      (if wanted sel .extensionConfigs then extLines [] S.rootExt else []))).more
      ((printed (("Object Folders: ".toList ++ commaJoin ((getObjectFolders t).map folderPath)) ::
        (if wanted sel .extensionConfigs then extLines [] S.rootExt else []))).more
      (if wanted sel .objects then eachStat (rootObjStat S fs sel) ((getObjectFolders t).map folderPath) else printed [])) := by
  unfold rootStat
  simp only [and_self, if_true]

theorem rootObjStat_none {S : StatEnv} {fs : FS} {sel : List StatInfo} {folder : Str} :
    (rootObjStat S fs sel folder).2 = none ↔ ∃ inv f, loadByFolder S.w S.env S.plain S.blank fs folder = .ok (inv, f) ∧
      (folderStat S fs folder inv sel).2 = none := by
  unfold rootObjStat
  split
  · rename_i e he
    simp [he]
  · rename_i inv f he
    rw [he, more_none]
    constructor
    · rintro ⟨_, h⟩; exact ⟨inv, f, rfl, h⟩
    · rintro ⟨i, g, h1, h2⟩; cases h1; exact ⟨rfl, h2⟩

/-- **C150, in full**: if `stat` of a storage root ends with success, every object was shown. -/
def C150_full : Prop := ∀ (S : StatEnv) (fs : FS) (t : FDir) (names : List Str) (found : List Fnd),
  GoodNames t → NoNesting t → RootHierarchy t → (∀ sel, statInfos names = some sel → wanted sel .objects = true) →
  (statRun S fs t [] [] names found).2.success = true →
  ∀ p, IsObjectFolder t p → ("Object: ".toList ++ folderPath p) ∈ (statRun S fs t [] [] names found).1

/-- **C150, the part that holds**: if the status is shown at the end, every object of the storage root was loaded and shown with all
that was asked for. -/
theorem C150_all_partial {S : StatEnv} {fs : FS} {t : FDir} {names : List Str} {found : List Fnd} (h1 : GoodNames t)
    (h2 : NoNesting t) (h3 : RootHierarchy t) (hw : ∀ sel, statInfos names = some sel → wanted sel .objects = true)
    (hs : (statRun S fs t [] [] names found).2.shown ≠ none) {p : List Str} (hp : IsObjectFolder t p) :
    ∃ sel inv f, statInfos names = some sel ∧ loadByFolder S.w S.env S.plain S.blank fs (folderPath p) = .ok (inv, f) ∧
      ("Object: ".toList ++ folderPath p) :: objLines S (S.objExt (folderPath p)) inv sel <:+: (statRun S fs t [] [] names found).1 := by
  unfold statRun at hs ⊢
  rw [if_neg (by simp)] at hs ⊢
  cases hsel : statInfos names with
  | none => rw [hsel] at hs; exact absurd rfl hs
  | some sel =>
    rw [hsel] at hs
    simp only at hs ⊢
    cases hr : (rootStat S fs t [] [] sel).2 with
    | some e => rw [hr] at hs; cases e <;> exact absurd rfl hs
    | none =>
      simp only
      have hr' := hr
      rw [rootStat_whole, if_pos (hw sel hsel)] at hr'
      simp only [more_none] at hr'
      have hall := eachStat_none.1 hr'.2.2
      have hmem : folderPath p ∈ (getObjectFolders t).map folderPath :=
        List.mem_map.2 ⟨p, ((C58_exact_partial h1 h2 h3).2 p).2 hp, rfl⟩
      obtain ⟨inv, f, hl, hn⟩ := rootObjStat_none.1 (hall _ hmem)
      refine ⟨sel, inv, f, rfl, hl, ?_⟩
      have hlines : (rootObjStat S fs sel (folderPath p)).1 =
          ("Object: ".toList ++ folderPath p) :: objLines S (S.objExt (folderPath p)) inv sel := by
        unfold rootObjStat
        rw [hl]
        simp only [more_printed]
        unfold folderStat
        rw [objStat_fst (objStat_none.1 hn)]
        rfl
      rw [← hlines]
      have hfst : (rootStat S fs t [] [] sel).1 = (["Storage Root".toList, "OCFL Version: ".toList ++ S.version] ++
          (if wanted sel .extensionConfigs then extLines [] S.rootExt else [])) ++
          ((("Object Folders: ".toList ++ commaJoin ((getObjectFolders t).map folderPath)) ::
            (if wanted sel .extensionConfigs then extLines [] S.rootExt else [])) ++
            (eachStat (rootObjStat S fs sel) ((getObjectFolders t).map folderPath)).1) := by
        rw [rootStat_whole, if_pos (hw sel hsel)]
        rfl
      rw [hfst, eachStat_fst hall]
      obtain ⟨u, v, huv⟩ := List.append_of_mem hmem
      rw [huv, List.flatMap_append, List.flatMap_cons]
      refine ⟨(["Storage Root".toList, "OCFL Version: ".toList ++ S.version] ++
          (if wanted sel .extensionConfigs then extLines [] S.rootExt else [])) ++
          ((("Object Folders: ".toList ++ commaJoin (u ++ folderPath p :: v)) ::
            (if wanted sel .extensionConfigs then extLines [] S.rootExt else [])) ++
            u.flatMap (fun a => (rootObjStat S fs sel a).1)), v.flatMap (fun a => (rootObjStat S fs sel a).1), ?_⟩
      simp only [List.append_assoc]

/-- **C150, for one object**: if the status is shown at the end, the object asked for was loaded and shown with all that was asked
for; if it cannot be loaded, the listing ends with a line that says so, and no status is shown. -/
theorem C150_one {S : StatEnv} {fs : FS} {t : FDir} {path id : Str} {names : List Str} {found : List Fnd}
    (one : path ≠ [] ∨ id ≠ []) :
    ((statRun S fs t path id names found).2.shown ≠ none → ∃ sel inv f, statInfos names = some sel ∧
      (statTarget S fs path id).2 = .ok (inv, f) ∧ ("Object: ".toList ++ (path ++ id)) ::
        objLines S (S.objExt (statTarget S fs path id).1) inv sel <:+ (statRun S fs t path id names found).1) ∧
    ∀ m, (path = [] ∨ id = []) → statInfos names ≠ none → (statTarget S fs path id).2 = .error (.error m) →
      (statRun S fs t path id names found).2.shown = none ∧
      (statRun S fs t path id names found).1.getLast? =
        some ("cannot load object '".toList ++ (path ++ id ++ ("': ".toList ++ S.errText (.error m)))) := by
  constructor
  · intro hs
    unfold statRun at hs ⊢
    by_cases hb : path ≠ [] ∧ id ≠ []
    · rw [if_pos hb] at hs; exact absurd rfl hs
    · rw [if_neg hb] at hs ⊢
      cases hsel : statInfos names with
      | none => rw [hsel] at hs; exact absurd rfl hs
      | some sel =>
        rw [hsel] at hs
        simp only at hs ⊢
        cases hr : (rootStat S fs t path id sel).2 with
        | some e => rw [hr] at hs; cases e <;> exact absurd rfl hs
        | none =>
          simp only
          cases hl : (statTarget S fs path id).2 with
          | error e =>
            rw [rootStat_one one, hl] at hr
            cases e <;> cases hr
          | ok x =>
            obtain ⟨inv, f⟩ := x
            rw [rootStat_one_ok one hl] at hr
            refine ⟨sel, inv, f, rfl, rfl, ?_⟩
            have hlines : (folderStat S fs (statTarget S fs path id).1 inv sel).1 =
                objLines S (S.objExt (statTarget S fs path id).1) inv sel := by
              unfold folderStat at hr ⊢
              rw [objStat_fst (objStat_none.1 hr)]
            rw [rootStat_one_ok one hl, ← hlines]
            exact List.suffix_append _ _
  · intro m hb hn hl
    obtain ⟨sel, hsel⟩ := Option.ne_none_iff_exists'.1 hn
    unfold statRun
    rw [if_neg (by rintro ⟨h1, h2⟩; rcases hb with h | h; exacts [h1 h, h2 h]), hsel]
    simp only [rootStat_one one, hl]
    refine ⟨rfl, ?_⟩
    show ((_ ++ [_] : List Str)).getLast? = _
    rw [List.getLast?_concat]

/-- The program ends with success whenever the listing is cut short by an error. -/
theorem C150_error_success {S : StatEnv} {fs : FS} {t : FDir} {path id : Str} {names : List Str} {found : List Fnd}
    {sel : List StatInfo} (hp : path = [] ∨ id = []) (hs : statInfos names = some sel) {m : String}
    (he : (rootStat S fs t path id sel).2 = some (.error m)) :
    (statRun S fs t path id names found).2.success = true ∧ (statRun S fs t path id names found).2.shown = none := by
  unfold statRun
  rw [if_neg (by rintro ⟨h1, h2⟩; rcases hp with h | h; exacts [h1 h, h2 h]), hs]
  simp only [he]
  exact ⟨trivial, trivial⟩

/-! ### Examples -/

/-- the tree of a storage root with the objects `o` and `p` -/
def statTree : FDir := .dir "o".toList exObj (.dir "p".toList exObj .nil)

theorem statTree_good : GoodNames statTree ∧ NoNesting statTree ∧ RootHierarchy statTree := by
  refine ⟨goodNames_of_check (by decide) (by decide), noNesting_of_check (by decide) (by decide), ?_⟩
  have ho : ObjDir exObj := ⟨objHere_iff.1 (by decide), _, _, rfl⟩
  exact ⟨.inr (.inl ho), .inr (.inl ho), trivial⟩

theorem statTree_p : IsObjectFolder statTree ["p".toList] :=
  ⟨exObj, .step (List.mem_cons_of_mem _ (List.mem_cons_self ..)) (.here _), objHere_iff.1 (by decide), by decide, by decide⟩

/-- the objects `o` and `p` with the given inventory files -/
def statDisk2 (b c : Bytes) : FS := statDisk b ++ (statDisk c).map (fun e => ('p' :: e.1.drop 1, e.2))

theorem stat_cut : (rootStat statEnv (statDisk2 [5] [9]) statTree [] [] []).2 = some (.error "cannot unmarshal json") ∧
    ("Object: ".toList ++ folderPath ["p".toList]) ∉ (rootStat statEnv (statDisk2 [5] [9]) statTree [] [] []).1 := by
  rw [rootStat_whole]
  decide

/-- **C150 is violated**: the first object cannot be read; the second one is not shown, and the program ends with success. -/
theorem C150_full_fails : ¬ C150_full := by
  intro hf
  have hr : statRun statEnv (statDisk2 [5] [9]) statTree [] [] [] [] =
      ((rootStat statEnv (statDisk2 [5] [9]) statTree [] [] []).1, ⟨true, none⟩) := by
    unfold statRun
    rw [if_neg (by simp)]
    simp only [statInfos, stat_cut.1]
  have := hf statEnv (statDisk2 [5] [9]) statTree [] [] statTree_good.1 statTree_good.2.1 statTree_good.2.2
    (by intro sel h; cases h; rfl) (by rw [hr]) ["p".toList] statTree_p
  rw [hr] at this
  exact stat_cut.2 this

/-- **C150 is violated**: an object with a version `vx` without user loads, and crashes the listing. -/
theorem C150_full_fails_crash : ∃ inv f,
    loadByFolder statEnv.w statEnv.env statEnv.plain statEnv.blank (statDisk [6]) "o".toList = .ok (inv, f) ∧
    (folderStat statEnv (statDisk [6]) "o".toList inv []).2 = some (.panic "nil dereference: user") := by
  have h : (loadByFolder statEnv.w statEnv.env statEnv.plain statEnv.blank (statDisk [6]) "o".toList).toOption.map (·.1) =
      some oddVersion := by decide
  cases hl : loadByFolder statEnv.w statEnv.env statEnv.plain statEnv.blank (statDisk [6]) "o".toList with
  | error e => rw [hl] at h; cases h
  | ok x =>
    rw [hl] at h
    have hx : x.1 = oddVersion := Option.some.inj h
    exact ⟨x.1, x.2, rfl, by rw [hx]; decide⟩

/-- the hypotheses are met: both objects are shown -/
example : ∃ sel inv f, statInfos [] = some sel ∧
    loadByFolder statEnv.w statEnv.env statEnv.plain statEnv.blank (statDisk2 [9] [9]) "p".toList = .ok (inv, f) ∧
    "Object: p".toList :: objLines statEnv (statEnv.objExt "p".toList) inv sel <:+:
      (statRun statEnv (statDisk2 [9] [9]) statTree [] [] [] []).1 := by
  refine C150_all_partial (p := ["p".toList]) statTree_good.1 statTree_good.2.1 statTree_good.2.2
    (by intro sel h; cases h; rfl) ?_ statTree_p
  have hr : (rootStat statEnv (statDisk2 [9] [9]) statTree [] [] []).2 = none := by
    rw [rootStat_whole]
    decide
  unfold statRun
  rw [if_neg (by simp)]
  simp [statInfos, hr]

/-- of one object: `o` cannot be read, and the listing says so … -/
example : (statRun statEnv (statDisk2 [5] [9]) statTree "o".toList [] [] []).2.shown = none ∧
    (statRun statEnv (statDisk2 [5] [9]) statTree "o".toList [] [] []).1.getLast? =
      some ("cannot load object 'o': ".toList ++ statEnv.errText (.error "cannot unmarshal json")) :=
  C150_one (Or.inl (by decide)) |>.2 "cannot unmarshal json" (Or.inr rfl) (by decide)
    (by
      have : (match (statTarget statEnv (statDisk2 [5] [9]) "o".toList []).2 with
            | .error (.error m) => some m
            | _ => none) = some "cannot unmarshal json" := by decide
      revert this
      cases (statTarget statEnv (statDisk2 [5] [9]) "o".toList []).2 with
      | ok x => exact nofun
      | error e =>
        cases e with
        | panic p => exact nofun
        | error m => exact fun h => by rw [Option.some.inj h])

/-- … `p` is shown -/
example : ∃ sel inv f, statInfos [] = some sel ∧ (statTarget statEnv (statDisk2 [5] [9]) "p".toList []).2 = .ok (inv, f) ∧
    "Object: p".toList :: objLines statEnv (statEnv.objExt "p".toList) inv sel <:+
      (statRun statEnv (statDisk2 [5] [9]) statTree "p".toList [] [] []).1 :=
  (C150_one (Or.inl (by decide))).1 (by decide)

end Gocfl
