import Verif.Model.OneObject
import Verif.Props.RootCheck
import Verif.Props.Metadata
import Verif.Props.Cmd

/-! # C155, C156, C157: validation, metadata and extraction of one object, compared with those of the whole storage root -/

namespace Gocfl

variable {w : World} {env : Env} {plain : Bool} {blank : Inv} {ls : List (Str → Res Str)} {fs : FS} {t : FDir}

/-- `CheckDirectory` finds the version the storage root was loaded with -/
theorem rootVersion_loaded {a : List Fnd} (h : loadRootFnd fs = .ok a) : rootVersion fs = loadedVersion fs := by
  unfold rootVersion loadedVersion
  cases hv : (topFiles fs).filterMap (fun e => declExact rootDecl e.name) with
  | nil => rfl
  | cons u l =>
    have hm : u ∈ (topFiles fs).filterMap (fun e => declExact rootDecl e.name) := by rw [hv]; simp
    obtain ⟨e', he', hx⟩ := List.mem_filterMap.1 hm
    obtain ⟨hnum, hname⟩ := declExact_spec.1 hx
    have hd : (e', u) ∈ declFiles rootDecl (topFiles fs) := by
      refine mem_declFiles.2 ⟨he', ?_, by rw [hname]; exact declFind_exact hnum⟩
      obtain ⟨n, b, _, _, rfl⟩ := mem_topFiles.1 he'; rfl
    cases hg : getVersion rootDecl (topFiles fs) with
    | version v =>
      obtain ⟨e, he, _⟩ := getVersion_version hg
      rw [he] at hd
      have := congrArg Prod.snd (List.mem_singleton.1 hd)
      exact this
    | none =>
      exfalso
      rw [getVersion_eq] at hg
      cases hl : declFiles rootDecl (topFiles fs) with
      | nil => rw [hl] at hd; cases hd
      | cons x r =>
        rw [hl] at hg
        obtain ⟨⟨n, c⟩, v⟩ := x
        cases c <;> cases r <;> simp only at hg <;> repeat' first | (split at hg) | (exact VersionResult.noConfusion hg)
    | _ =>
      exfalso
      unfold loadRootFnd at h
      rw [hg] at h
      cases h

theorem oneVersionFnd_eq {a : List Fnd} (h : loadRootFnd fs = .ok a) (folder : Str) :
    oneVersionFnd w env plain blank fs folder = objVersionFnd w env plain blank fs folder := by
  unfold oneVersionFnd objVersionFnd
  rw [rootVersion_loaded h]
  cases getVersion objDecl (topFiles (subFS fs folder)) <;> rfl

theorem validateCmd_id {id : Str} (hid : id ≠ []) : validateCmd w env plain blank ls fs t id [] =
    loadRootFnd fs >>= fun a => checkByID w env plain blank ls fs id >>= fun b => .ok (a ++ b) := by
  unfold validateCmd
  simp [hid]

theorem validateCmd_path {path : Str} (hp : path ≠ []) : validateCmd w env plain blank ls fs t [] path =
    loadRootFnd fs >>= fun a => checkNamed w env plain blank fs path path >>= fun b => .ok (a ++ b) := by
  unfold validateCmd
  simp [hp]

/-- `CheckObjectByFolder` does the same alone and as part of the validation of the storage root -/
theorem checkNamed_folder {a : List Fnd} (h : loadRootFnd fs = .ok a) (folder : Str) :
    checkNamed w env plain blank fs folder folder = checkRootFolder w env plain blank fs folder := by
  unfold checkNamed checkRootFolder checkFolder
  rw [oneVersionFnd_eq h]
  cases loadByFolder w env plain blank fs folder with
  | error e => cases e <;> rfl
  | ok r =>
    obtain ⟨inv, f⟩ := r
    simp only
    split
    · rfl
    · cases checkObject w env plain (subFS fs folder) inv <;> rfl

/-! ## C155 -/

/-- **C155, by path**: what `validate --object-path` shows about an object folder is what validation of the whole storage root
shows about it, beside the findings about the storage root itself. -/
theorem C155_folder {F : List Fnd} {p : List Str} (h : validateRoot w env plain blank fs t = .ok F) (hp : p ∈ getObjectFolders t)
    (hne : folderPath p ≠ []) :
    ∃ a g F1 F2, loadRootFnd fs = .ok a ∧ validateCmd w env plain blank ls fs t [] (folderPath p) = .ok (a ++ g) ∧
      F = a ++ (rootDirFnd fs ++ (F1 ++ (g ++ F2))) := by
  obtain ⟨a, b, ha, hb, rfl⟩ := validateRoot_ok h
  obtain ⟨l1, l2, hl⟩ := List.append_of_mem hp
  have key : ∀ (l1 : List (List Str)) (b : List Fnd), checkObjects w env plain blank fs (l1 ++ p :: l2) = .ok b →
      ∃ g F1 F2, checkRootFolder w env plain blank fs (folderPath p) = .ok g ∧ b = F1 ++ (g ++ F2) := by
    intro l1
    induction l1 with
    | nil =>
      intro b hb
      unfold checkObjects at hb
      simp only [List.nil_append, collect] at hb
      obtain ⟨g, hg, hb⟩ := res_bind_eq_ok.1 hb
      obtain ⟨g2, hg2, hb⟩ := res_bind_eq_ok.1 hb
      cases hb
      exact ⟨g, [], g2, hg, rfl⟩
    | cons q l1 ih =>
      intro b hb
      unfold checkObjects at hb
      simp only [List.cons_append, collect] at hb
      obtain ⟨g0, hg0, hb⟩ := res_bind_eq_ok.1 hb
      obtain ⟨g2, hg2, hb⟩ := res_bind_eq_ok.1 hb
      cases hb
      obtain ⟨g, F1, F2, h1, rfl⟩ := ih g2 hg2
      exact ⟨g, g0 ++ F1, F2, h1, by simp⟩
  obtain ⟨g, F1, F2, h1, rfl⟩ := key l1 b (by rw [← hl]; exact hb)
  refine ⟨a, g, F1, F2, ha, ?_, rfl⟩
  rw [validateCmd_path hne, ha, checkNamed_folder ha, h1]
  rfl

/-- the validation of the storage root shows its findings exactly if the validation of each folder alone does -/
theorem C155_shown_iff : (∃ F, validateRoot w env plain blank fs t = .ok F) ↔
    (∃ a, loadRootFnd fs = .ok a) ∧ ∀ p ∈ getObjectFolders t, ∃ g, checkNamed w env plain blank fs (folderPath p) (folderPath p) = .ok g := by
  constructor
  · rintro ⟨F, h⟩
    obtain ⟨a, b, ha, hb, rfl⟩ := validateRoot_ok h
    exact ⟨⟨a, ha⟩, fun p hp => by rw [checkNamed_folder ha]; exact collect_ok_iff.1 ⟨b, hb⟩ p hp⟩
  · rintro ⟨⟨a, ha⟩, hall⟩
    obtain ⟨b, hb⟩ := (collect_ok_iff (f := fun p => checkRootFolder w env plain blank fs (folderPath p)) (l := getObjectFolders t)).2
      (fun p hp => by rw [← checkNamed_folder ha]; exact hall p hp)
    exact ⟨_, by unfold validateRoot checkObjects; rw [ha]; exact res_bind_eq_ok.2 ⟨_, rfl, res_bind_eq_ok.2 ⟨b, hb, rfl⟩⟩⟩

/-- **C155, by id**: `validate --object-id` shows what `validate --object-path` shows for the folder the layout gives for the id,
except for the name of an object that cannot be loaded. -/
theorem C155_by_id {id : Str} (hid : id ≠ []) (hf : (rootPath ls id).1 ≠ []) (hl : (rootPath ls id).2 = false) :
    validateCmd w env plain blank ls fs t id [] = validateCmd w env plain blank ls fs t [] (rootPath ls id).1 ∨
    ∃ a g, validateCmd w env plain blank ls fs t id [] = .ok (a ++ (g ++ [err 1 [id]])) ∧
      validateCmd w env plain blank ls fs t [] (rootPath ls id).1 = .ok (a ++ (g ++ [err 1 [(rootPath ls id).1]])) := by
  rw [validateCmd_id hid, validateCmd_path hf]
  cases loadRootFnd fs with
  | error e => left; rfl
  | ok a =>
    unfold checkByID
    rw [hl]
    simp only [Bool.false_eq_true, if_false]
    unfold checkNamed
    cases loadByFolder w env plain blank fs (rootPath ls id).1 with
    | ok r => left; rfl
    | error e =>
      cases e with
      | panic m => left; rfl
      | error m => right; exact ⟨a, _, rfl, rfl⟩

/-- **C155, in full**: if `validate --object-id` shows no errors, there is an object with that id. -/
def C155_full : Prop := ∀ (w : World) (env : Env) (plain : Bool) (blank : Inv) (ls : List (Str → Res Str)) (fs : FS) (t : FDir) (id : Str)
  (F : List Fnd), id ≠ [] → validateCmd w env plain blank ls fs t id [] = .ok F → NoErrors F →
  ∃ i f, loadByID w env plain blank ls fs id = .ok (i, f) ∧ i.id = id

/-- **C155, exact**: `validate --object-id` shows no errors exactly if the storage root was loaded without any, the layout has a
folder for the id, and the object there is accepted and not newer than the storage root.  Missing: that this is the object with
that id; layouts that give two ids one folder. -/
theorem C155_accepted_iff_partial {id : Str} (hid : id ≠ []) :
    (∃ F, validateCmd w env plain blank ls fs t id [] = .ok F ∧ NoErrors F) ↔
      (∃ a, loadRootFnd fs = .ok a ∧ NoErrors a) ∧ (rootPath ls id).2 = false ∧ Accepted w env plain blank fs (rootPath ls id).1 ∧
        ∀ v, getVersion objDecl (topFiles (subFS fs (rootPath ls id).1)) = .version v → decLt (loadedVersion fs) v = false := by
  rw [validateCmd_id hid]
  have hquiet : ∀ {a : List Fnd}, loadRootFnd fs = .ok a →
      ((∃ b, checkByID w env plain blank ls fs id = .ok b ∧ NoErrors b) ↔ (rootPath ls id).2 = false ∧
        (∃ b, checkRootFolder w env plain blank fs (rootPath ls id).1 = .ok b ∧ NoErrors b)) := by
    intro a ha
    unfold checkByID
    cases hl : (rootPath ls id).2 with
    | true =>
      simp only [if_true, Bool.true_eq_false, false_and, iff_false]
      rintro ⟨b, hb, hn⟩
      cases hb
      exact absurd (List.mem_singleton.2 rfl) (not_err_mem hn)
    | false =>
      simp only [Bool.false_eq_true, if_false, true_and]
      rw [← checkNamed_folder ha]
      unfold checkNamed
      cases loadByFolder w env plain blank fs (rootPath ls id).1 with
      | ok r => rfl
      | error e =>
        cases e with
        | panic m => rfl
        | error m =>
          constructor <;>
          · rintro ⟨b, hb, hn⟩
            cases hb
            exact absurd (List.mem_singleton.2 rfl) (not_err_mem (noErrors_append.1 hn).2)
  constructor
  · rintro ⟨F, hF, hn⟩
    obtain ⟨a, ha, hF⟩ := res_bind_eq_ok.1 hF
    obtain ⟨b, hb, hF⟩ := res_bind_eq_ok.1 hF
    cases hF
    obtain ⟨na, nb⟩ := noErrors_append.1 hn
    obtain ⟨h1, h2⟩ := (hquiet ha).1 ⟨b, hb, nb⟩
    obtain ⟨h3, h4⟩ := checkRootFolder_quiet.1 h2
    rw [rootVersion_loaded ha] at h4
    exact ⟨⟨a, ha, na⟩, h1, h3, h4⟩
  · rintro ⟨⟨a, ha, na⟩, h1, h3, h4⟩
    rw [← rootVersion_loaded ha] at h4
    obtain ⟨b, hb, nb⟩ := (hquiet ha).2 ⟨h1, checkRootFolder_quiet.2 ⟨h3, h4⟩⟩
    exact ⟨a ++ b, res_bind_eq_ok.2 ⟨a, ha, res_bind_eq_ok.2 ⟨b, hb, rfl⟩⟩, noErrors_append.2 ⟨na, nb⟩⟩

/-- **C155, the part that holds**: with a layout that gives different ids in use folders none of which is the other or lies inside
it, the object without errors is the one with that id. -/
theorem C155_own_partial {I : Str → Prop} (hk : KeepsId w)
    (hap : ∀ id id', I id → I id' → id ≠ id' → Apart (rootPath ls id).1 (rootPath ls id').1)
    (hr : Reached w env true blank ls I fs) {id : Str} (hI : I id) (hid : id ≠ []) {F : List Fnd}
    (h : validateCmd w env true blank ls fs t id [] = .ok F) (hn : NoErrors F) :
    ∃ i f, loadByID w env true blank ls fs id = .ok (i, f) ∧ i.id = id := by
  obtain ⟨_, h1, ⟨G, h2, h3⟩, _⟩ := (C155_accepted_iff_partial (t := t) hid).1 ⟨F, h, hn⟩
  unfold checkFolder at h2
  cases hl : loadByFolder w env true blank fs (rootPath ls id).1 with
  | error e =>
    rw [hl] at h2
    cases e with
    | panic m => cases h2
    | error m => cases h2; exact absurd (List.mem_singleton.2 rfl) (not_err_mem h3)
  | ok r =>
    have h4 : loadByID w env true blank ls fs id = .ok (r.1, r.2) := by
      unfold loadByID
      rw [if_neg (by rw [h1]; decide)]
      exact hl
    exact ⟨r.1, r.2, h4, C57_opens_own_partial hk hap hr hI h4⟩

/-- **C155, with both options**: nothing is validated, nothing is shown. -/
theorem C155_both {id path : Str} (h1 : id ≠ []) (h2 : path ≠ []) : ∃ e, validateCmd w env plain blank ls fs t id path = .error e := by
  unfold validateCmd
  rw [if_neg (fun hc => h1 hc.1)]
  cases loadRootFnd fs with
  | error e => exact ⟨e, rfl⟩
  | ok a => exact ⟨_, by show (if _ then _ else _) = _; rw [if_pos ⟨h1, h2⟩]⟩

/-- the theorems apply: a storage root with one object, by path and by id -/
example : validateCmd ockWorld exEnv false ockInv flatLayout okRootFS okRootTree [] "o".toList = .ok [] ∧
    validateCmd ockWorld exEnv false ockInv flatLayout okRootFS okRootTree "o".toList [] = .ok [] ∧
    validateCmd ockWorld exEnv false ockInv flatLayout okRootFS okRootTree "p".toList [] =
      .ok [err 3 ["p".toList], err 1 ["p".toList]] := by
  refine ⟨by decide, by decide, by decide⟩

/-- **C155 is violated**: with the layout that omits a prefix, `validate --object-id urn:o` shows no errors although the object in
that folder is another one. -/
theorem C155_full_fails : ¬ C155_full := by
  intro hf
  obtain ⟨i, f, h1, h2⟩ := hf ockWorld exEnv false ockInv omitLayout okRootFS okRootTree "urn:o".toList [] (by decide) (by decide)
    (by simp [NoErrors])
  have h3 : loadByID ockWorld exEnv false ockInv omitLayout okRootFS "urn:o".toList = .ok (ockInv, []) := by decide
  rw [h3] at h1
  cases h1
  exact absurd h2 (by decide)

/-! ## C156 -/

section
variable {V : Type} {exts : Str → Inv → List (Str × Res (AMap Str V))}

/-- **C156**, by path: the metadata of one object is what the metadata of the whole storage root says about it. -/
theorem C156_folder_partial {M : AMap Str (ObjMeta V)} {p : List Str} (h : extractMeta w env plain blank fs t exts = .ok M)
    (hp : p ∈ getObjectFolders t) (hne : folderPath p ≠ [])
    (hd : ∀ p ∈ getObjectFolders t, ∀ q ∈ getObjectFolders t, ∀ r r', loadByFolder w env plain blank fs (folderPath p) = .ok r →
      loadByFolder w env plain blank fs (folderPath q) = .ok r' → r.1.id = r'.1.id → p = q) :
    ∃ id m, extractMetaOf w env plain blank ls fs t exts (folderPath p) [] = .ok [(id, m)] ∧ mget M id = some m := by
  obtain ⟨r, m, h1, h2, h3⟩ := rootMetadata_complete h hd hp
  refine ⟨r.1.id, m, ?_, h3⟩
  unfold extractMetaOf oneObjectOf
  rw [if_neg (fun hc => hne hc.1), if_pos hne, h1]
  show (objMetadata r.1 (exts (folderPath p) r.1) >>= fun m => .ok (mset [] r.1.id m)) = _
  rw [h2]
  rfl

/-- **C156, in full**: the metadata asked for with an id is that of the object with this id, in every storage root this program
wrote. -/
def C156_full : Prop := ∀ (V : Type) (w : World) (env : Env) (plain : Bool) (blank : Inv) (ls : List (Str → Res Str)) (fs : FS) (t : FDir)
  (exts : Str → Inv → List (Str × Res (AMap Str V))) (id : Str) (M : AMap Str (ObjMeta V)), KeepsId w →
  Reached w env plain blank ls (fun _ => True) fs → id ≠ [] →
  extractMetaOf w env plain blank ls fs t exts [] id = .ok M → ∃ m, M = [(id, m)] ∧ m.id = id

/-- **C156**, exact: what is shown is the metadata of the object in the folder the layout gives for the id, under the id that
object has. -/
theorem C156_by_id {id : Str} (hid : id ≠ []) {M : AMap Str (ObjMeta V)} :
    extractMetaOf w env plain blank ls fs t exts [] id = .ok M ↔
      ∃ i f m, loadByID w env plain blank ls fs id = .ok (i, f) ∧ objMetadata i (exts (rootPath ls id).1 i) = .ok m ∧ M = [(i.id, m)] := by
  unfold extractMetaOf oneObjectOf
  rw [if_neg (fun hc => hid hc.2), if_neg (fun hc => hc rfl)]
  constructor
  · intro h
    obtain ⟨o, ho, h⟩ := res_bind_eq_ok.1 h
    obtain ⟨m, hm, h⟩ := res_bind_eq_ok.1 h
    obtain ⟨r, hr, ho⟩ := res_bind_eq_ok.1 ho
    cases ho
    cases h
    exact ⟨r.1, r.2, m, hr, hm, rfl⟩
  · rintro ⟨i, f, m, h1, h2, rfl⟩
    exact res_bind_eq_ok.2 ⟨_, res_bind_eq_ok.2 ⟨(i, f), h1, rfl⟩, res_bind_eq_ok.2 ⟨m, h2, rfl⟩⟩

/-- **C156, the part that holds**: with a layout that gives different ids in use folders none of which is the other or lies inside
it, and with missing inventories reported, it is the object with this id. -/
theorem C156_own_partial {I : Str → Prop} (hk : KeepsId w)
    (hap : ∀ id id', I id → I id' → id ≠ id' → Apart (rootPath ls id).1 (rootPath ls id').1)
    (hr : Reached w env true blank ls I fs) {id : Str} (hI : I id) (hid : id ≠ []) {M : AMap Str (ObjMeta V)}
    (h : extractMetaOf w env true blank ls fs t exts [] id = .ok M) : ∃ m, M = [(id, m)] ∧ m.id = id := by
  obtain ⟨i, f, m, h1, h2, rfl⟩ := (C156_by_id hid).1 h
  have := C57_opens_own_partial hk hap hr hI h1
  subst this
  refine ⟨m, rfl, ?_⟩
  unfold objMetadata at h2
  obtain ⟨em, _, h2⟩ := res_bind_eq_ok.1 h2
  cases h2
  rfl

end

/-- no extension reports anything -/
def noExts : Str → Inv → List (Str × Res (AMap Str Bytes)) := fun _ _ => []

/-- the hypotheses are met -/
example : ∃ id m, extractMetaOf ockWorld exEnv false ockInv flatLayout okRootFS okRootTree noExts "o".toList [] = .ok [(id, m)] := by
  have hok : ∃ M, extractMeta ockWorld exEnv false ockInv okRootFS okRootTree noExts = .ok M := ⟨_, rfl⟩
  obtain ⟨M, hM⟩ := hok
  have hl : getObjectFolders okRootTree = [["o".toList]] := by decide
  obtain ⟨id, m, h, _⟩ := C156_folder_partial (ls := flatLayout) hM (p := ["o".toList]) (by rw [hl]; simp) (by decide) (by
    rw [hl]
    intro p hp q hq
    rw [List.mem_singleton.1 hp, List.mem_singleton.1 hq]
    intros; rfl)
  exact ⟨id, m, h⟩

/-- also those of the theorem for an id -/
example : ∃ m, extractMetaOf exKeep exEnv true (blankInv [] []) flatLayout (exStore flatLayout "a".toList) okRootTree noExts [] "a".toList =
    .ok [("a".toList, m)] ∧ m.id = "a".toList := by
  obtain ⟨i, f, h1, _⟩ := exStore_opens exEnv true (blankInv [] []) (ls := flatLayout) (id := "a".toList) (Or.inr rfl)
    (by decide)
  have h2 := (C156_by_id (t := okRootTree) (exts := noExts) (by decide)).2 ⟨i, f, _, h1, rfl, rfl⟩
  obtain ⟨m, h3, h4⟩ := C156_own_partial (I := fun x => '/' ∉ x) exKeep_keepsId (fun a b ha hb hne => flat_apart ha hb hne)
    (exStore_reached _ _ _ _ _ _ (by decide)) (by decide) (by decide) h2
  exact ⟨m, by rw [h2, h3], h4⟩

/-- **C156 is violated**: with the layout that omits a prefix, `extractmeta --object-id urn:a` gives the metadata of `info:a`. -/
theorem C156_full_fails : ¬ C156_full := by
  intro hf
  obtain ⟨i, f, h1, h2⟩ := exStore_opens exEnv true (blankInv [] []) (ls := omitLayout) (Or.inl rfl) (by decide)
  have h3 : loadByID exKeep exEnv true (blankInv [] []) omitLayout (exStore omitLayout "info:a".toList) "urn:a".toList = .ok (i, f) := by
    have h4 : rootPath omitLayout "urn:a".toList = rootPath omitLayout "info:a".toList := by decide
    unfold loadByID at h1 ⊢
    rw [h4]
    exact h1
  obtain ⟨m, h4, _⟩ := hf Bytes exKeep exEnv true (blankInv [] []) omitLayout (exStore omitLayout "info:a".toList) okRootTree noExts
    "urn:a".toList _ exKeep_keepsId (exStore_reached _ _ _ _ _ _ trivial) (by decide)
    ((C156_by_id (by decide)).2 ⟨i, f, _, h3, rfl, rfl⟩)
  injection h4 with h4
  have h5 := (Prod.mk.inj h4).1
  rw [h2] at h5
  exact absurd h5 (by decide)

/-! ## C157 -/

theorem extract_latest {w : World} {i : Inv} {fs : FS} {xp : ExtractPath} {v : Str} {wm : Bool} :
    extract w i fs xp (if v = [] then "latest".toList else v) wm = extract w i fs xp v wm := by
  split
  · rename_i hv; subst hv; rfl
  · rfl

/-- **C157**, by path: extraction of one object (default area) gives, file by file, what extraction of the whole storage root puts
into the folder of this object. -/
theorem C157_folder_partial {xp : Str → Str → ExtractPath} {v : Str} {wm : Bool} {area : Str} (T : TreeOf t fs) (G : GoodNames t)
    (hnest : NoNesting t) (hh : RootHierarchy t) (h : (extractOf w env plain blank ls fs t xp v wm area [] []).2 = none)
    {p : List Str} (hp : IsObjectFolder t p) (hne : folderPath p ≠ []) :
    (extractOf w env plain blank ls fs t xp v wm [] (folderPath p) []).2 = none ∧
    ∀ x, mget (applyOps [] (extractOf w env plain blank ls fs t xp v wm area [] []).1) (folderPath p ++ '/' :: x) =
      mget (applyOps [] (extractOf w env plain blank ls fs t xp v wm [] (folderPath p) []).1) x := by
  have h0 : extractOf w env plain blank ls fs t xp v wm area [] [] = extractRoot w env plain blank fs t xp v wm area := by
    unfold extractOf; rw [if_pos ⟨rfl, rfl⟩]
  rw [h0] at h ⊢
  obtain ⟨r, h1, h2, h3⟩ := C85_root_extraction_partial T G hnest hh h hp
  have h4 : extractOf w env plain blank ls fs t xp v wm [] (folderPath p) [] =
      ((extract w r.1 (subFS fs (folderPath p)) (xp (folderPath p) []) v wm).trace,
        (extract w r.1 (subFS fs (folderPath p)) (xp (folderPath p) []) v wm).err) := by
    unfold extractOf oneObjectOf
    rw [if_neg (fun hc => hne hc.1), if_pos hne, h1]
    show ((extract w r.1 _ _ (if v = [] then "latest".toList else v) wm).trace, _) = _
    rw [extract_latest]
  rw [h4]
  exact ⟨h2, h3⟩

/-- **C157, in full**: the object `extract --object-id` opened has this id, and without error what is written is what the extraction
of that object writes, in every storage root this program wrote. -/
def C157_full : Prop := ∀ (w : World) (env : Env) (plain : Bool) (blank : Inv) (ls : List (Str → Res Str)) (fs : FS) (t : FDir)
  (xp : Str → Str → ExtractPath) (v : Str) (wm : Bool) (area id : Str), KeepsId w →
  Reached w env plain blank ls (fun _ => True) fs → id ≠ [] →
  (extractOf w env plain blank ls fs t xp v wm area [] id).2 = none →
  ∃ i f, loadByID w env plain blank ls fs id = .ok (i, f) ∧ i.id = id ∧
    (extractOf w env plain blank ls fs t xp v wm area [] id).1 =
      (extract w i (subFS fs (rootPath ls id).1) (xp (rootPath ls id).1 area) v wm).trace

/-- **C157**, exact: the object extracted is the one in the folder the layout gives for the id. -/
theorem C157_by_id {xp : Str → Str → ExtractPath} {v : Str} {wm : Bool} {area id : Str} (hid : id ≠ [])
    (h : (extractOf w env plain blank ls fs t xp v wm area [] id).2 = none) :
    ∃ i f, loadByID w env plain blank ls fs id = .ok (i, f) ∧
      (extract w i (subFS fs (rootPath ls id).1) (xp (rootPath ls id).1 area) v wm).err = none ∧
      (extractOf w env plain blank ls fs t xp v wm area [] id).1 =
        (extract w i (subFS fs (rootPath ls id).1) (xp (rootPath ls id).1 area) v wm).trace := by
  unfold extractOf oneObjectOf at h ⊢
  rw [if_neg (fun hc => hid hc.2), if_neg (fun hc => hc rfl)] at h ⊢
  cases hl : loadByID w env plain blank ls fs id with
  | error e => rw [hl] at h; cases h
  | ok r =>
    rw [hl] at h
    have h' : (extract w r.1 (subFS fs (rootPath ls id).1) (xp (rootPath ls id).1 area)
      (if v = [] then "latest".toList else v) wm).err = none := h
    rw [extract_latest] at h'
    refine ⟨r.1, r.2, rfl, h', ?_⟩
    show (extract w r.1 (subFS fs (rootPath ls id).1) (xp (rootPath ls id).1 area)
      (if v = [] then "latest".toList else v) wm).trace = _
    rw [extract_latest]

/-- **C157, the part that holds**: with a layout that gives different ids in use folders none of which is the other or lies inside
it, and with missing inventories reported, the object extracted is the one with that id. -/
theorem C157_own_partial {I : Str → Prop} (hk : KeepsId w)
    (hap : ∀ id id', I id → I id' → id ≠ id' → Apart (rootPath ls id).1 (rootPath ls id').1)
    (hr : Reached w env true blank ls I fs) {xp : Str → Str → ExtractPath} {v : Str} {wm : Bool} {area id : Str} (hI : I id)
    (hid : id ≠ []) (h : (extractOf w env true blank ls fs t xp v wm area [] id).2 = none) :
    ∃ i f, loadByID w env true blank ls fs id = .ok (i, f) ∧ i.id = id ∧
      (extractOf w env true blank ls fs t xp v wm area [] id).1 =
        (extract w i (subFS fs (rootPath ls id).1) (xp (rootPath ls id).1 area) v wm).trace := by
  obtain ⟨i, f, h1, _, h3⟩ := C157_by_id hid h
  exact ⟨i, f, h1, C57_opens_own_partial hk hap hr hI h1, h3⟩

/-- the hypotheses are met -/
example : (extractOf ockWorld exEnv false ockInv flatLayout okRootFS okRootTree (fun _ _ n => .ok (some n)) [] false [] "o".toList []).2 =
    none :=
  (C157_folder_partial (xp := fun _ _ n => .ok (some n)) (area := []) (p := ["o".toList]) okRoot_tree okRoot_good okRoot_noNesting
    okRoot_hierarchy (by decide) okRoot_object (by decide)).1

theorem extractOf_id {xp : Str → Str → ExtractPath} {v : Str} {wm : Bool} {area id : Str} (hid : id ≠ []) {i : Inv} {f : List Fnd}
    (h : loadByID w env plain blank ls fs id = .ok (i, f)) :
    extractOf w env plain blank ls fs t xp v wm area [] id =
      ((extract w i (subFS fs (rootPath ls id).1) (xp (rootPath ls id).1 area) v wm).trace,
        (extract w i (subFS fs (rootPath ls id).1) (xp (rootPath ls id).1 area) v wm).err) := by
  unfold extractOf oneObjectOf
  rw [if_neg (fun hc => hid hc.2), if_neg (fun hc => hc rfl), h]
  show ((extract w i _ _ (if v = [] then "latest".toList else v) wm).trace, _) = _
  rw [extract_latest]

/-- the extraction of the object `a` under an id with its folder -/
theorem exStore_extract {ls : List (Str → Res Str)} (hl : (rootPath ls "a".toList).1 = "a".toList) {id : Str} (hid : id ≠ [])
    (hp : rootPath ls id = ("a".toList, false)) :
    (extractOf exKeep exEnv true (blankInv [] []) ls (exStore ls "a".toList) okRootTree (fun _ _ n => .ok (some n)) [] false [] [] id).2 =
      none := by
  obtain ⟨f, hf⟩ := exStore_load exEnv true (blankInv [] []) ls hl id hp
  rw [extractOf_id hid hf, hp]
  simp only
  rw [exStore_sub ls hl]
  decide

/-- also those of the theorem for an id -/
example : ∃ i f, loadByID exKeep exEnv true (blankInv [] []) flatLayout (exStore flatLayout "a".toList) "a".toList = .ok (i, f) ∧
    i.id = "a".toList := by
  obtain ⟨i, f, h1, h2, _⟩ := C157_own_partial (I := fun x => '/' ∉ x) exKeep_keepsId (fun a b ha hb hne => flat_apart ha hb hne)
    (exStore_reached exEnv true (blankInv [] []) flatLayout _ "a".toList (by decide)) (id := "a".toList) (by decide) (by decide)
    (exStore_extract (by decide) (by decide) (by decide))
  exact ⟨i, f, h1, h2⟩

/-- **C157 is violated**: with the layout that omits a prefix, `extract --object-id urn:a` extracts the object `a` without any
error. -/
theorem C157_full_fails : ¬ C157_full := by
  intro hf
  obtain ⟨i, f, h1, h2, _⟩ := hf exKeep exEnv true (blankInv [] []) omitLayout (exStore omitLayout "a".toList) okRootTree
    (fun _ _ n => .ok (some n)) [] false [] "urn:a".toList exKeep_keepsId (exStore_reached _ _ _ _ _ _ trivial) (by decide)
    (exStore_extract (by decide) (by decide) (by decide))
  obtain ⟨g, hg⟩ := exStore_load exEnv true (blankInv [] []) omitLayout (by decide) "urn:a".toList (by decide)
  rw [hg] at h1
  cases h1
  exact absurd h2 (by decide)

end Gocfl
