import Verif.Model.ContentPath
import Verif.Model.VersionNames

/-!
# Properties of content paths and areas (C13, C32, C33)
-/

namespace Gocfl

/-! ## C13 -/

/-- **C13, full statement** (false): whatever the file is called, its content path lies strictly below
`<head>/<content directory>/`. -/
def C13_full : Prop :=
  ∀ (inv : Inv) (name : Str), ValidComp inv.head → ValidComp inv.contentDir →
    ∃ cs, cs ≠ [] ∧ (∀ c ∈ cs, ValidComp c) ∧
      buildManifestName inv name = joinWith '/' (inv.head :: inv.contentDir :: cs)

theorem buildManifestName_eq {inv : Inv} (hh : ValidComp inv.head) (hc : ValidComp inv.contentDir)
    (name : Str) {r : List Str} (hr : cleanGo false [inv.contentDir, inv.head] (splitOn '/' name) = r)
    (hne : ∀ x ∈ r, x ≠ []) :
    buildManifestName inv name = pathClean (if r = [] then ".".toList else joinWith '/' r) := by
  unfold buildManifestName buildManifestNameVersion
  congr 1
  have h1 : pathJoin [inv.head, inv.contentDir, name] =
      pathClean (inv.head ++ '/' :: (inv.contentDir ++ '/' :: name)) := by
    cases hd : inv.head with
    | nil => exact absurd hd hh.1
    | cons c h => rfl
  rw [h1]
  refine pathClean_cons hh ?_ hne
  rw [splitOn_append, splitOn_noSep hc.2.2.2, List.singleton_append]
  rw [← hr]
  exact cleanGo_append (cs := [inv.head, inv.contentDir]) (ds := splitOn '/' name) (by
    intro c hcm
    simp only [List.mem_cons, List.not_mem_nil, or_false] at hcm
    rcases hcm with rfl | rfl
    · exact hh
    · exact hc) []

/-- **C13** for every name which, followed component by component, never climbs above its start
directory and does not end at it. -/
theorem C13_content_path_inside_partial {inv : Inv} (hh : ValidComp inv.head)
    (hc : ValidComp inv.contentDir) {name : Str} {k : Nat}
    (hw : walk 0 (splitOn '/' name) = some (k + 1)) :
    ∃ cs, cs ≠ [] ∧ (∀ c ∈ cs, ValidComp c) ∧
      buildManifestName inv name = joinWith '/' (inv.head :: inv.contentDir :: cs) := by
  obtain ⟨cs, h1, h2, h3⟩ := cleanGo_walk (acc := []) (base := [inv.contentDir, inv.head])
    (fun c hc => splitOn_noSep_mem hc) (by simp) hw
  have hv : ∀ c ∈ inv.head :: inv.contentDir :: cs, ValidComp c := by
    intro c hcm
    rcases List.mem_cons.1 hcm with rfl | hcm
    · exact hh
    rcases List.mem_cons.1 hcm with rfl | hcm
    · exact hc
    exact h2 c hcm
  refine ⟨cs, by rintro rfl; simp at h1, h2, ?_⟩
  have h3 := h3 false
  simp only [List.nil_append, List.reverse_cons, List.reverse_nil, List.cons_append] at h3
  rw [buildManifestName_eq hh hc name h3 (fun x hx => (hv x hx).1), if_neg (by simp)]
  exact pathClean_valid (by simp) hv

/-- **C13** for clean relative names, which is all that walking a source folder yields: the content path
is the name appended to `<head>/<content directory>/`; different names get different paths. -/
theorem C13_content_path_clean_name {inv : Inv} (hh : ValidComp inv.head)
    (hc : ValidComp inv.contentDir) {name : Str} (hn : CleanRel name) :
    buildManifestName inv name = inv.head ++ '/' :: (inv.contentDir ++ '/' :: name) := by
  have h1 : CleanRel inv.head := ⟨[inv.head], by simp, by simpa using hh, rfl⟩
  have h2 : CleanRel inv.contentDir := ⟨[inv.contentDir], by simp, by simpa using hc, rfl⟩
  unfold buildManifestName buildManifestNameVersion
  have h3 : pathJoin [inv.head, inv.contentDir, name] =
      pathClean (inv.head ++ '/' :: (inv.contentDir ++ '/' :: name)) := by
    cases hd : inv.head with
    | nil => exact absurd hd hh.1
    | cons c h => rfl
  rw [h3, (h1.join (h2.join hn)).clean, (h1.join (h2.join hn)).clean]

/-- **C13**, consequence: with clean names the content paths of different versions never coincide. -/
theorem C13_versions_disjoint {inv inv' : Inv} {a b : Nat} {pad pad' : Int} (hab : a ≠ b)
    (hh : inv.head = verName pad (a : Int)) (hh' : inv'.head = verName pad' (b : Int))
    (hc : ValidComp inv.contentDir) (hc' : ValidComp inv'.contentDir)
    {name name' : Str} (hn : CleanRel name) (hn' : CleanRel name') :
    buildManifestName inv name ≠ buildManifestName inv' name' := by
  have hv : ∀ (p : Int) (n : Nat), ValidComp (verName p (n : Int)) := by
    intro p n
    obtain ⟨k, hk⟩ := verName_shape p n
    rw [hk]
    refine ⟨by simp, by simp, by simp, ?_⟩
    have := all_isDigit_zeros_append k n
    rw [List.all_eq_true] at this
    intro hm
    rcases List.mem_cons.1 hm with h | h
    · exact absurd h (by decide)
    · exact absurd (this _ h) (by decide)
  rw [C13_content_path_clean_name (hh ▸ hv pad a) hc hn,
    C13_content_path_clean_name (hh' ▸ hv pad' b) hc' hn', hh, hh']
  intro h
  have hs := congrArg (splitOn '/') h
  rw [splitOn_append, splitOn_noSep (hv pad a).2.2.2, splitOn_append _ (verName pad' _),
    splitOn_noSep (hv pad' b).2.2.2] at hs
  exact hab (verName_inj (List.cons.inj hs).1)

/-- The content path is never empty (so recording a file always names its content, as `C10` needs). -/
theorem C13_content_path_ne_nil (inv : Inv) (name : Str) : buildManifestName inv name ≠ [] :=
  pathClean_ne_nil _

/-- **C13 fails**: with a name `../../q` the content path is `q`, for any clean path `q` — for instance
that of a file of an earlier version. -/
theorem C13_full_fails_dotdot {inv : Inv} (hh : ValidComp inv.head) (hc : ValidComp inv.contentDir)
    {q : Str} (hq : CleanRel q) : buildManifestName inv ("../../".toList ++ q) = q := by
  obtain ⟨cs, h1, h2, rfl⟩ := hq
  have hns : ∀ c ∈ cs, '/' ∉ c := fun c hc => (h2 c hc).2.2.2
  have hsplit : splitOn '/' ("../../".toList ++ joinWith '/' cs) = "..".toList :: "..".toList :: cs := by
    have : "../../".toList ++ joinWith '/' cs = "..".toList ++ '/' :: ("..".toList ++ '/' :: joinWith '/' cs) :=
      rfl
    rw [this, splitOn_append, splitOn_append, splitOn_joinWith_noSep h1 hns]; rfl
  have hr : cleanGo false [inv.contentDir, inv.head] (splitOn '/' ("../../".toList ++ joinWith '/' cs)) = cs := by
    rw [hsplit, cleanGo, if_neg (by decide), if_pos rfl, popComp, if_neg hc.2.2.1, cleanGo,
      if_neg (by decide), if_pos rfl, popComp, if_neg hh.2.2.1, cleanGo_valid h2]; rfl
  rw [buildManifestName_eq hh hc _ hr (fun x hx => (h2 x hx).1), if_neg h1]
  exact pathClean_valid h1 h2

/-- an inventory with head `v2` and default content directory -/
def exHead : Inv := { newInv "id".toList [] "sha512".toList [] [] with head := "v2".toList }

theorem exHead_valid : ValidComp exHead.head ∧ ValidComp exHead.contentDir :=
  ⟨⟨by decide, by decide, by decide, by decide⟩, ⟨by decide, by decide, by decide, by decide⟩⟩

example : ∃ cs, cs ≠ [] ∧ (∀ c ∈ cs, ValidComp c) ∧
    buildManifestName exHead "a/../b//./c.txt".toList =
      joinWith '/' (exHead.head :: exHead.contentDir :: cs) :=
  C13_content_path_inside_partial exHead_valid.1 exHead_valid.2 (k := 1) (by decide)

theorem C13_full_fails : ¬ C13_full := by
  intro h
  have hq : CleanRel "v1/content/a".toList :=
    ⟨["v1".toList, "content".toList, "a".toList], by simp, by
      intro c hc
      have : ∀ c ∈ ["v1".toList, "content".toList, "a".toList],
        c ≠ [] ∧ c ≠ ".".toList ∧ c ≠ "..".toList ∧ '/' ∉ c := by decide
      exact this c hc, by decide⟩
  obtain ⟨cs, _, _, h3⟩ := h exHead ("../../".toList ++ "v1/content/a".toList) exHead_valid.1 exHead_valid.2
  rw [C13_full_fails_dotdot exHead_valid.1 exHead_valid.2 hq] at h3
  have := congrArg (splitOn '/') h3
  rw [splitOn_joinWith (by simp), List.flatMap_cons, splitOn_noSep exHead_valid.1.2.2.2] at this
  have hh : splitOn '/' "v1/content/a".toList = ["v1".toList, "content".toList, "a".toList] := by decide
  rw [hh] at this
  exact absurd (List.cons.inj this).1 (by decide)

/-! ## C32 -/

/-- **C32, full statement** (false): for every configuration, a file added to an area and extracted from
the same area comes back under its clean relative path. -/
def C32_full : Prop :=
  ∀ (e : SubPathExt) (area p q : Str), CleanRel p → e.build p area = .ok q →
    e.extract q area = .ok p

theorem trimLeft_slash_valid {p : Str} (h : CleanRel p) : trimLeft p "/".toList = p := by
  obtain ⟨cs, h1, h2, rfl⟩ := h
  cases cs with
  | nil => exact absurd rfl h1
  | cons c cs =>
    have hc := h2 c (by simp)
    cases hcc : c with
    | nil => exact absurd hcc hc.1
    | cons x c' =>
      have hx : x ≠ '/' := by rintro rfl; exact hc.2.2.2 (by rw [hcc]; simp)
      have hcont : ("/".toList).contains x = false := by
        show ['/'].contains x = false
        simp [hx]
      have : ∀ t, trimLeft (x :: t) "/".toList = x :: t := by
        intro t; unfold trimLeft; rw [List.dropWhile_cons, hcont]; rfl
      cases cs with
      | nil => rw [joinWith]; exact this _
      | cons d cs => rw [joinWith]; exact this _

theorem trimLeft_slash_cons {p : Str} (h : CleanRel p) : trimLeft ('/' :: p) "/".toList = p := by
  have : trimLeft ('/' :: p) "/".toList = trimLeft p "/".toList := rfl
  rw [this]; exact trimLeft_slash_valid h

theorem hasPrefix_append (a b : Str) : hasPrefix (a ++ b) a = true := by
  unfold hasPrefix; rw [List.isPrefixOf_iff_prefix]; exact List.prefix_append _ _

theorem trimPrefix_append (a b : Str) : trimPrefix (a ++ b) a = b := by
  unfold trimPrefix; rw [if_pos (hasPrefix_append a b)]; simp

/-- The area paths of a configuration are clean relative paths (or empty, meaning the object root). -/
def AreasClean (e : SubPathExt) : Prop := ∀ a s, mget e.paths a = some s → s = [] ∨ CleanRel s

/-- **C32** for configurations whose area paths are clean: adding a file succeeds for every configured
area, gives the path below the area's folder, and extraction gives back the original path. -/
theorem C32_round_trip_partial {e : SubPathExt} (he : AreasClean e) {area p : Str} (hp : CleanRel p)
    (harea : let a := if area = [] then e.area else area
      a = "full".toList ∨ ∃ s, mget e.paths a = some s) :
    ∃ q, e.build p area = .ok q ∧ e.extract q area = .ok p := by
  simp only at harea
  by_cases hf : (if area = [] then e.area else area) = "full".toList
  · exact ⟨p, by simp [SubPathExt.build, hf], by simp [SubPathExt.extract, hf]⟩
  · obtain ⟨s, hs⟩ := harea.resolve_left hf
    refine ⟨pathJoin [s, p], by simp only [SubPathExt.build, hf, if_false, hs], ?_⟩
    rcases he _ _ hs with rfl | hcl
    · have : pathJoin [[], p] = p := by
        have hpn := hp.ne_nil
        cases p with
        | nil => exact absurd rfl hpn
        | cons c p => exact hp.clean
      have hpre : hasPrefix p [] = true := rfl
      have htp : trimPrefix p [] = p := by simp [trimPrefix, hpre]
      simp only [SubPathExt.extract, hf, if_false, hs, this, trimLeft_slash_valid hp, hpre, if_true, htp]
    · rw [pathJoin_two hcl hp]
      simp only [SubPathExt.extract, hf, if_false, hs, trimLeft_slash_valid (hcl.join hp),
        hasPrefix_append, if_true, trimPrefix_append, trimLeft_slash_cons hp]

/-- the configuration of the content-subpath documentation -/
def exSub : SubPathExt :=
  { area := "content".toList
    paths := [("content".toList, "data".toList), ("metadata".toList, "sys/meta".toList)] }

example : ∃ q, exSub.build "a/b.txt".toList "metadata".toList = .ok q ∧
    exSub.extract q "metadata".toList = .ok "a/b.txt".toList := by
  refine C32_round_trip_partial ?_ ⟨["a".toList, "b.txt".toList], by simp, ?_, by decide⟩
    (Or.inr ⟨"sys/meta".toList, by decide⟩)
  · intro a s h
    right
    have hm := mem_of_mget h
    simp only [exSub, List.mem_cons, List.not_mem_nil, or_false, Prod.mk.injEq] at hm
    rcases hm with ⟨_, rfl⟩ | ⟨_, rfl⟩
    · exact ⟨["data".toList], by simp, by
        intro c hc; simp only [List.mem_singleton] at hc; subst hc
        exact ⟨by decide, by decide, by decide, by decide⟩, rfl⟩
    · exact ⟨["sys".toList, "meta".toList], by simp, by
        intro c hc
        have : ∀ c ∈ ["sys".toList, "meta".toList],
          c ≠ [] ∧ c ≠ ".".toList ∧ c ≠ "..".toList ∧ '/' ∉ c := by decide
        exact this c hc, by decide⟩
  · intro c hc
    have : ∀ c ∈ ["a".toList, "b.txt".toList],
      c ≠ [] ∧ c ≠ ".".toList ∧ c ≠ "..".toList ∧ '/' ∉ c := by decide
    exact this c hc

/-- **C32 fails** for area paths that are not clean: files go to the cleaned folder, extraction compares
with the configured text. -/
theorem C32_full_fails : ¬ C32_full := by
  intro h
  have hp : CleanRel "f".toList := ⟨["f".toList], by simp, by
    intro c hc; simp only [List.mem_singleton] at hc; subst hc
    exact ⟨by decide, by decide, by decide, by decide⟩, rfl⟩
  have := h ⟨"c".toList, [("c".toList, "./data".toList)]⟩ [] "f".toList "data/f".toList hp (by decide)
  exact absurd this (by decide)

/-! ## C33 -/

/-- folder `b` is the folder `a` or inside it -/
def Inside (a b : Str) : Prop := a = [] ∨ b = a ∨ (a ++ "/".toList) <+: b

/-- **C33, full statement** (false): a file added to area `b` whose folder is not inside the folder of area
`a` is not extracted with area `a`. -/
def C33_full : Prop :=
  ∀ (e : SubPathExt) (a b pa pb p q : Str), AreasClean e → a ≠ [] → b ≠ [] → a ≠ "full".toList →
    b ≠ "full".toList → mget e.paths a = some pa → mget e.paths b = some pb → ¬ Inside pa pb →
    CleanRel p → e.build p b = .ok q → e.extract q a = .error .wrongArea

/-- **C33, what the code does**: a file of area `b` is extracted with area `a` exactly if its path has the
path of `a` as string prefix. -/
theorem C33_extract_iff {e : SubPathExt} {a b pa pb p : Str} (ha : a ≠ []) (hb : b ≠ [])
    (haf : a ≠ "full".toList) (hbf : b ≠ "full".toList) (hpa : mget e.paths a = some pa)
    (hpb : mget e.paths b = some pb) (hcl : CleanRel pb) (hp : CleanRel p) :
    e.build p b = .ok (pb ++ '/' :: p) ∧
    (e.extract (pb ++ '/' :: p) a = .error .wrongArea ↔ ¬ pa <+: (pb ++ '/' :: p)) := by
  refine ⟨by simp only [SubPathExt.build, hb, if_false, hbf, hpb, pathJoin_two hcl hp], ?_⟩
  simp only [SubPathExt.extract, ha, if_false, haf, hpa, trimLeft_slash_valid (hcl.join hp)]
  by_cases h : hasPrefix (pb ++ '/' :: p) pa = true
  · rw [if_pos h]
    unfold hasPrefix at h; rw [List.isPrefixOf_iff_prefix] at h
    simp [h]
  · rw [if_neg h]
    unfold hasPrefix at h; rw [List.isPrefixOf_iff_prefix] at h
    simp [h]

/-- **C33** if neither folder is nested in the other and `a`'s path is not a string prefix of `b`'s. -/
theorem C33_isolated_partial {e : SubPathExt} {a b pa pb p q : Str} (he : AreasClean e) (ha : a ≠ [])
    (hb : b ≠ []) (haf : a ≠ "full".toList) (hbf : b ≠ "full".toList)
    (hpa : mget e.paths a = some pa) (hpb : mget e.paths b = some pb) (hpbn : pb ≠ [])
    (h1 : ¬ pa <+: pb) (h2 : ¬ (pb ++ "/".toList) <+: pa)
    (hp : CleanRel p) (hq : e.build p b = .ok q) : e.extract q a = .error .wrongArea := by
  have hcl := (he b pb hpb).resolve_left hpbn
  obtain ⟨k1, k2⟩ := C33_extract_iff ha hb haf hbf hpa hpb hcl hp
  rw [k1] at hq; cases hq
  rw [k2]
  intro hpre
  rcases List.prefix_or_prefix_of_prefix hpre (List.prefix_append pb ('/' :: p)) with h | h
  · exact h1 h
  · obtain ⟨t, rfl⟩ := h
    rw [List.prefix_append_right_inj] at hpre
    cases t with
    | nil => exact h1 (by simp)
    | cons c t =>
      obtain ⟨u, hu⟩ := hpre
      have hc := (List.cons.inj hu).1
      subst hc
      exact h2 ⟨t, by simp⟩

example : ∀ q, exSub.build "a".toList "metadata".toList = .ok q →
    exSub.extract q "content".toList = .error .wrongArea := by
  intro q hq
  refine C33_isolated_partial (pa := "data".toList) (pb := "sys/meta".toList) (b := "metadata".toList)
    (p := "a".toList) ?_ (by decide) (by decide) (by decide) (by decide) (by decide) (by decide)
    (by decide) (by decide) (by decide)
    ⟨["a".toList], by simp, by
      intro c hc; simp only [List.mem_singleton] at hc; subst hc
      exact ⟨by decide, by decide, by decide, by decide⟩, rfl⟩ hq
  intro a s h
  right
  have hm := mem_of_mget h
  simp only [exSub, List.mem_cons, List.not_mem_nil, or_false, Prod.mk.injEq] at hm
  rcases hm with ⟨_, rfl⟩ | ⟨_, rfl⟩
  · exact ⟨["data".toList], by simp, by
      intro c hc; simp only [List.mem_singleton] at hc; subst hc
      exact ⟨by decide, by decide, by decide, by decide⟩, rfl⟩
  · exact ⟨["sys".toList, "meta".toList], by simp, by
      intro c hc
      have : ∀ c ∈ ["sys".toList, "meta".toList],
        c ≠ [] ∧ c ≠ ".".toList ∧ c ≠ "..".toList ∧ '/' ∉ c := by decide
      exact this c hc, by decide⟩

/-- **C33 fails** whenever the folder name of area `a` is a string prefix of that of area `b`: every file of
`b` is extracted with area `a`. -/
theorem C33_full_fails_prefix {e : SubPathExt} {a b pa pb p : Str} (ha : a ≠ []) (hb : b ≠ [])
    (haf : a ≠ "full".toList) (hbf : b ≠ "full".toList) (hpa : mget e.paths a = some pa)
    (hpb : mget e.paths b = some pb) (hcl : CleanRel pb) (hp : CleanRel p) (hpre : pa <+: pb) :
    ∃ q r, e.build p b = .ok q ∧ e.extract q a = .ok r := by
  obtain ⟨k1, _⟩ := C33_extract_iff ha hb haf hbf hpa hpb hcl hp
  refine ⟨_, trimLeft (trimPrefix (pb ++ '/' :: p) pa) "/".toList, k1, ?_⟩
  have : hasPrefix (pb ++ '/' :: p) pa = true := by
    unfold hasPrefix; rw [List.isPrefixOf_iff_prefix]; exact hpre.trans (List.prefix_append _ _)
  simp only [SubPathExt.extract, ha, if_false, haf, hpa, trimLeft_slash_valid (hcl.join hp), this, if_true]

theorem C33_full_fails : ¬ C33_full := by
  intro h
  have hv : ∀ s : Str, s ≠ [] → s ≠ ".".toList → s ≠ "..".toList → '/' ∉ s → CleanRel s := by
    intro s h1 h2 h3 h4
    exact ⟨[s], by simp, by intro c hc; simp only [List.mem_singleton] at hc; subst hc; exact ⟨h1, h2, h3, h4⟩, rfl⟩
  have h1 := hv "f".toList (by decide) (by decide) (by decide) (by decide)
  have := h ⟨"c".toList, [("c".toList, "data".toList), ("m".toList, "database".toList)]⟩ "c".toList "m".toList
    "data".toList "database".toList "f".toList "database/f".toList (by
      intro a s hs
      right
      have hm := mem_of_mget hs
      simp only [List.mem_cons, List.not_mem_nil, or_false, Prod.mk.injEq] at hm
      rcases hm with ⟨_, rfl⟩ | ⟨_, rfl⟩
      · exact hv _ (by decide) (by decide) (by decide) (by decide)
      · exact hv _ (by decide) (by decide) (by decide) (by decide))
    (by decide) (by decide) (by decide) (by decide) (by decide) (by decide) (by
      rintro (h | h | h)
      · exact absurd h (by decide)
      · exact absurd h (by decide)
      · exact absurd h (by decide)) h1 (by decide)
  exact absurd this (by decide)

/-- a case of `C13_versions_disjoint` -/
example : buildManifestName { exHead with head := "v1".toList } "a/b".toList ≠
    buildManifestName { exHead with head := "v10".toList } "a/b".toList :=
  have hn : CleanRel "a/b".toList := ⟨["a".toList, "b".toList], by simp, by
    intro c hc
    rcases List.mem_cons.1 hc with rfl | hc
    · exact ⟨by decide, by decide, by decide, by decide⟩
    · cases List.mem_singleton.1 hc
      exact ⟨by decide, by decide, by decide, by decide⟩, by decide⟩
  C13_versions_disjoint (inv := { exHead with head := "v1".toList }) (inv' := { exHead with head := "v10".toList }) (a := 1) (b := 10) (pad := 0) (pad' := 0) (by decide) (by decide) (by decide) exHead_valid.2 exHead_valid.2 hn hn

end Gocfl
