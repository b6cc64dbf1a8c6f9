import Verif.Props.ArchiveValid
import Verif.Props.Loss

/-! # C198: which files of a whole archive can be lost without notice -/

namespace Gocfl

/-! ## One object -/

/-- **C196** for any valid object -/
theorem valid_loss_iff {w : World} (hL : LowerHash w) {env env' : Env} {blank blank' : Inv} {root : FS} {folder : Str} {p N : Nat} {r : RawInv}
    {lost : Str → Bool} (V : ValidObject w (subFS root folder) p N r) (hv : Accepted w env false blank root folder) :
    Accepted w env' false blank' (without root lost) folder ↔
      ∀ k b, mget root (under folder k) = some b → lost (under folder k) = true → Ignored k := by
  obtain ⟨r', O⟩ := (C184_accepted_iff hL).1 hv
  constructor
  · intro h' k b hb hl
    unfold Accepted at h'
    rw [C184_accepted_iff hL, without_subFS] at h'
    rw [← mget_subFS] at hb
    exact expendable_valid V O hb (C196_noticed O h' k b hl hb)
  · intro hi
    refine (C184_ignored hL ?_).1 hv
    rw [without_subFS]
    refine without_ignored (fun k b hb hl => ?_)
    obtain ⟨c, hc⟩ := Option.ne_none_iff_exists'.1 (fun hc => mget_eq_none_iff.1 hc (mem_mkeys_of_mem hb))
    rw [mget_subFS] at hc
    exact hi k c hc hl

theorem declName_ignored {num : Str} (h : IsVersionNum num) : ¬ Ignored (declName num) := not_ignored_top (declName_noSlash h)

/-! ## The declaration of the storage root -/

/-- the name of the declaration of the storage root -/
def rootDeclName (v : Str) : Str := "0=ocfl_".toList ++ v

theorem RootDeclared.without {fs : FS} {v : Str} (D : RootDeclared fs v) {lost : Str → Bool} (h : lost (rootDeclName v) = false) :
    RootDeclared (without fs lost) v := by
  refine ⟨D.supported, ?_, fun n b hb hn => D.only n b (without_some.1 hb).2 hn⟩
  obtain ⟨b, hb, hc⟩ := D.content
  exact ⟨b, without_some.2 ⟨h, hb⟩, hc⟩

theorem RootDeclared.kept {w : World} {env : Env} {plain : Bool} {blank : Inv} {fs : FS} {v : Str} (D : RootDeclared fs v) {lost : Str → Bool} {t : FDir}
    (h : ∃ F, validateRoot w env plain blank (Gocfl.without fs lost) t = .ok F ∧ NoErrors F) : lost (rootDeclName v) = false := by
  obtain ⟨F, hF, hn⟩ := h
  obtain ⟨a, b, ha, _, rfl⟩ := validateRoot_ok hF
  obtain ⟨na, _⟩ := noErrors_append.1 hn
  obtain ⟨u, hu, _⟩ := loadRootFnd_quiet ha na
  obtain ⟨e, he, _⟩ := getVersion_version hu
  obtain ⟨h1, _, h3⟩ := mem_declFiles.1 (show (e, u) ∈ declFiles rootDecl (topFiles (Gocfl.without fs lost)) by rw [he]; simp)
  obtain ⟨n, c, hnc, hns, rfl⟩ := mem_topFiles.1 h1
  obtain ⟨hnum, hinf⟩ := declFind_sound h3
  have hk := mem_mkeys_mget.1 (mem_mkeys_of_mem hnc)
  obtain ⟨c', hc'⟩ := Option.ne_none_iff_exists'.1 hk
  obtain ⟨hl, hc'⟩ := without_some.1 hc'
  have := D.only n c' hc' hns u hnum hinf
  rw [this] at hl
  exact hl

theorem without_nodup {fs : FS} {lost : Str → Bool} (h : (mkeys fs).Nodup) : (mkeys (without fs lost)).Nodup := by
  unfold mkeys without at *
  exact h.sublist (List.filter_sublist.map _)

/-- the folder of an object is listed as long as its declaration is there -/
theorem object_recurse_without {w : World} {t : FDir} {fs : FS} {lost : Str → Bool} (T : TreeOf t (without fs lost)) (G : GoodNames t) (hs : Sorted t) {f : Str}
    (hf : '/' ∉ f) {N : Nat} {r : RawInv} (O : ValidObject w (subFS fs f) 0 N r) {num : Str} (hnum : IsVersionNum num)
    (hdec : mget (without fs lost) (under f (declName num)) ≠ none) {x : FDir} (hx : (f, x) ∈ t.dirs) : recurseObjects [f] x = [[f]] := by
  have hr : Reach t [f] x := .step hx (.here _)
  obtain ⟨c, hdec⟩ := Option.ne_none_iff_exists'.1 hdec
  obtain ⟨y, hy, hdf⟩ := (T.files [f] (declName num) (by
    intro c hc
    rcases List.mem_append.1 hc with hc | hc
    · rw [List.mem_singleton.1 hc]; exact hf
    · rw [List.mem_singleton.1 hc]; exact declName_noSlash hnum)).2 ⟨_, hdec⟩
  rw [← reach_unique G hr hy] at hdf
  refine recurse_object (hs _ _ hr) hdf (fun m hm => (G _ _ hr).2 m (List.mem_append.2 (.inr hm))) ?_ [f]
  rintro ⟨e, sub⟩ he ⟨q, z, hz, hne⟩
  obtain ⟨m, hm⟩ := List.exists_mem_of_ne_nil _ hne
  have hr2 : Reach t (f :: e :: q) z := .step hx (.step he hz)
  obtain ⟨b, hb⟩ := tree_file T hr2 hm
  have he1 := ((T.names _ _ hr2).1 e (by simp)).1
  have e1 : folderPath (f :: e :: q ++ [m]) = under f (e ++ '/' :: folderPath (q ++ [m])) := by
    show folderPath (f :: (e :: (q ++ [m]))) = _
    rw [folderPath_cons _ (by simp), folderPath_cons _ (by simp)]
    rfl
  rw [e1] at hb
  have hb := (without_some.1 hb).2
  rw [← mget_subFS] at hb
  exact decl_before O num hb he1

/-! ## The whole storage root -/

/-- none of the files in the objects has the name of a declaration of an object -/
def NoInnerObjects (fs : FS) (H : Str → History) : Prop :=
  ∀ id, H id ≠ [] → ∀ r v, IsVersionNum v → mget fs (under (urnFolder id) (r ++ '/' :: declName v)) = none

/-- all of the object is lost, or nothing outside of `logs` and `extensions` -/
def LostWhole (fs : FS) (lost : Str → Bool) (folder : Str) : Prop := ∀ k, mget fs (under folder k) ≠ none → lost (under folder k) = true

def LostLittle (fs : FS) (lost : Str → Bool) (folder : Str) : Prop :=
  ∀ k, mget fs (under folder k) ≠ none → lost (under folder k) = true → Ignored k

section
variable {S : Setup} {h : Bytes → Str} {s : RootDisk} {H : Str → History} {t t' : FDir} {lost : Str → Bool}

/-- **C198.** A storage root made and filled by the program validates.  Then any files are lost.  It still validates if and only if
its declaration is left, and each object is lost as a whole or has lost nothing but files in `logs` and `extensions`. -/
theorem C198_loss_iff (d : DefaultConfig S) (hc : Codec S.w) (hx : HexHash S.w) (hL : LowerHash S.w) (ht : ∀ t, S.w.time (S.w.time t) = S.w.time t)
    (hh : S.w.hash S.args.alg = some h) (hr : UserRun S UrnId (AutoSession S.w (Deposit S.w h S.args)) s H) (hclean : NoLeftovers s.fs H)
    (hin : NoInnerObjects s.fs H) (T : TreeOf t s.fs) (G : GoodNames t) (hs : Sorted t) (hplain : S.plain = false)
    (hval : ∃ F, validateRoot S.w S.env S.plain S.blank s.fs t = .ok F ∧ NoErrors F)
    (T' : TreeOf t' (without s.fs lost)) (G' : GoodNames t') (hs' : Sorted t') :
    (∃ F, validateRoot S.w S.env S.plain S.blank (without s.fs lost) t' = .ok F ∧ NoErrors F) ↔
      lost (rootDeclName S.new.init.version) = false ∧
      ∀ id, H id ≠ [] → LostWhole s.fs lost (urnFolder id) ∨ LostLittle s.fs lost (urnFolder id) := by
  have R := tidy_run d hr
  have hobj := run_objects d hc hx hL ht hh hr
  have hacc : ∀ id, H id ≠ [] → Accepted S.w S.env false S.blank s.fs (urnFolder id) ∧ ∀ u, ObjVersion s.fs (urnFolder id) u → VersionLe u S.new.init.version := by
    intro id hne
    have := (validateRoot_iff R.declared R.nodup).1 hval _ ((C197_listed d hc hx hL ht hh hr hclean T G hs _).2 ⟨id, hne, rfl⟩)
    rw [hplain] at this
    exact this
  have hnd := without_nodup (lost := lost) R.nodup
  -- a folder of the rest belongs to an object
  have howner : ∀ {n : Str} {q : List Str} {x : FDir} {m : Str}, n ≠ "extensions".toList → Reach t' (n :: q) x → m ∈ x.files →
      ∃ id r b, H id ≠ [] ∧ n = urnFolder id ∧ mget (without s.fs lost) (under (urnFolder id) r) = some b ∧
        folderPath (n :: (q ++ [m])) = under (urnFolder id) r := by
    intro n q x m hext hr2 hm
    obtain ⟨b, hb⟩ := tree_file T' hr2 hm
    have hns := ((T'.names _ _ hr2).1 n (by simp)).1
    have e0 : folderPath (n :: (q ++ [m])) = n ++ '/' :: folderPath (q ++ [m]) := folderPath_cons _ (by simp)
    have hb' : mget (without s.fs lost) (n ++ '/' :: folderPath (q ++ [m])) = some b := by rw [← e0]; exact hb
    rcases R.places _ (by rw [(without_some.1 hb').2]; simp) (by simp) with ⟨r, h1⟩ | ⟨id, r, hid, h1⟩
    · exact absurd (first_part hns (by decide) h1) hext
    · refine ⟨id, r, b, fun h0 => ?_, first_part hns (urnFolder_no_slash hid) h1, by rw [← h1]; exact hb', e0.trans h1⟩
      have := hclean id hid h0 r
      rw [← h1, (without_some.1 hb').2] at this; cases this
  constructor
  · intro hv
    have hk := R.declared.kept hv
    refine ⟨hk, fun id hne => ?_⟩
    obtain ⟨hid, C, r, O, A⟩ := hobj id hne
    by_cases hw : LostWhole s.fs lost (urnFolder id)
    · exact .inl hw
    right
    obtain ⟨k, hk1, hk2⟩ : ∃ k, mget s.fs (under (urnFolder id) k) ≠ none ∧ lost (under (urnFolder id) k) = false := by
      unfold LostWhole at hw
      push Not at hw
      obtain ⟨k, h1, h2⟩ := hw
      exact ⟨k, h1, by simpa using h2⟩
    have hall := (validateRoot_iff (R.declared.without hk) hnd).1 hv
    -- the folder itself is listed
    have hsl := urnFolder_no_slash hid
    obtain ⟨p, m, hpm⟩ : ∃ p m, splitOn '/' k = p ++ [m] := by
      rcases List.eq_nil_or_concat (splitOn '/' k) with h0 | ⟨p, m, h0⟩
      · exact absurd h0 (splitOn_ne_nil _ _)
      · exact ⟨p, m, by simpa using h0⟩
    have hpath : folderPath (urnFolder id :: p ++ [m]) = under (urnFolder id) k := by
      rw [List.cons_append, ← hpm, folderPath_cons _ (splitOn_ne_nil _ _)]
      unfold folderPath
      rw [joinWith_splitOn]
      rfl
    have hnames : ∀ c ∈ urnFolder id :: p ++ [m], '/' ∉ c := by
      intro c hc
      rw [List.cons_append, ← hpm] at hc
      rcases List.mem_cons.1 hc with rfl | hc
      · exact hsl
      · exact splitOn_noSep_mem hc
    obtain ⟨b, hb⟩ := Option.ne_none_iff_exists'.1 hk1
    obtain ⟨x, hx1, hx2⟩ := (T'.files (urnFolder id :: p) m hnames).2 ⟨b, by rw [hpath]; exact without_some.2 ⟨hk2, hb⟩⟩
    obtain ⟨q, rr, hq1, hq2, hq3⟩ := folders_cover G' hx1 (fun h0 => by rw [h0] at hx2; cases hx2) (by simp)
      (by simp only [List.head?_cons, ne_eq, Option.some.injEq]; exact fun he => urn_clear hid (.inl he))
    obtain ⟨hqa, _⟩ := hall q hq3
    cases q with
    | nil => exact absurd rfl hq2
    | cons f q =>
      rw [List.cons_append, List.cons.injEq] at hq1
      obtain ⟨rfl, _⟩ := hq1
      rw [hplain] at hqa
      cases q with
      | nil =>
        intro k' hk' hl'
        obtain ⟨b', hb'⟩ := Option.ne_none_iff_exists'.1 hk'
        exact (valid_loss_iff hL O (hacc id hne).1).1 hqa k' b' hb' hl'
      | cons g q =>
        exfalso
        obtain ⟨u, _, ⟨hu, c, hc⟩, _⟩ := accepted_version hqa
        rw [folderPath_cons _ (by simp)] at hc
        have h0 := hin id hne (folderPath (g :: q)) u hu
        have e : urnFolder id ++ '/' :: folderPath (g :: q) ++ '/' :: ("0=ocfl_object_".toList ++ u) =
            under (urnFolder id) (folderPath (g :: q) ++ '/' :: declName u) := by
          rw [List.append_assoc]; rfl
        rw [e] at hc
        rw [(without_some.1 hc).2] at h0
        cases h0
  · rintro ⟨hk, hlost⟩
    refine (validateRoot_iff (R.declared.without hk) hnd).2 (fun p hp => ?_)
    obtain ⟨n, sub, hn, _, hext, hp⟩ := mem_folders_iff.1 hp
    obtain ⟨q, x, _, hq, m, hm, _⟩ := mem_recurseObjects hp
    obtain ⟨id, r', b, hne, rfl, hb, _⟩ := howner hext (.step hn hq) hm
    obtain ⟨hid, C, r, O, A⟩ := hobj id hne
    have hlit : LostLittle s.fs lost (urnFolder id) := by
      rcases hlost id hne with h1 | h1
      · have := h1 r' (by rw [(without_some.1 hb).2]; simp)
        rw [(without_some.1 hb).1] at this; cases this
      · exact h1
    have hdec : mget (without s.fs lost) (under (urnFolder id) (declName S.args.version)) ≠ none := by
      have h1 := C.declaration
      rw [mget_subFS] at h1
      rw [mget_without]
      cases hl : lost (under (urnFolder id) (declName S.args.version)) with
      | true => exact absurd (hlit _ h1 hl) (declName_ignored C.number)
      | false => exact h1
    rw [object_recurse_without T' G' hs' (urnFolder_no_slash hid) O C.number hdec hn, List.mem_singleton] at hp
    subst hp
    obtain ⟨h1, h2⟩ := hacc id hne
    rw [hplain]
    refine ⟨(valid_loss_iff hL O h1).2 (fun k b hb hl => hlit k (by rw [hb]; simp) hl), fun u hu => h2 u ?_⟩
    obtain ⟨hu1, c, hc⟩ := hu
    exact ⟨hu1, c, (without_some.1 hc).2⟩

/-- **C198, what is noticed**: an object of which something is left, but something outside of `logs` and `extensions` is lost, or the
declaration of the storage root is. -/
theorem C198_noticed_partial (d : DefaultConfig S) (hc : Codec S.w) (hx : HexHash S.w) (hL : LowerHash S.w) (ht : ∀ t, S.w.time (S.w.time t) = S.w.time t)
    (hh : S.w.hash S.args.alg = some h) (hr : UserRun S UrnId (AutoSession S.w (Deposit S.w h S.args)) s H) (hclean : NoLeftovers s.fs H)
    (hin : NoInnerObjects s.fs H) (T : TreeOf t s.fs) (G : GoodNames t) (hs : Sorted t) (hplain : S.plain = false)
    (hval : ∃ F, validateRoot S.w S.env S.plain S.blank s.fs t = .ok F ∧ NoErrors F)
    (T' : TreeOf t' (without s.fs lost)) (G' : GoodNames t') (hs' : Sorted t') {id k k' : Str} (hid : H id ≠ [])
    (hk : mget s.fs (under (urnFolder id) k) ≠ none) (hl : lost (under (urnFolder id) k) = true) (hi : ¬ Ignored k)
    (hk' : mget s.fs (under (urnFolder id) k') ≠ none) (hl' : lost (under (urnFolder id) k') = false) :
    ¬ ∃ F, validateRoot S.w S.env S.plain S.blank (without s.fs lost) t' = .ok F ∧ NoErrors F := by
  intro hv
  rcases ((C198_loss_iff d hc hx hL ht hh hr hclean hin T G hs hplain hval T' G' hs').1 hv).2 id hid with h1 | h1
  · have := h1 k' hk'
    rw [hl'] at this; cases this
  · exact hi (h1 k hk hl)

end

/-- **C198 in full**: the loss of any file of an object outside of `logs` and `extensions` is noticed. -/
def C198_full : Prop := ∀ (S : Setup) (h : Bytes → Str) (s : RootDisk) (H : Str → History) (t t' : FDir) (lost : Str → Bool), DefaultConfig S → Codec S.w → HexHash S.w →
  LowerHash S.w → (∀ t, S.w.time (S.w.time t) = S.w.time t) → S.w.hash S.args.alg = some h →
  UserRun S UrnId (AutoSession S.w (Deposit S.w h S.args)) s H → NoLeftovers s.fs H → NoInnerObjects s.fs H →
  TreeOf t s.fs → GoodNames t → Sorted t → S.plain = false → (∃ F, validateRoot S.w S.env S.plain S.blank s.fs t = .ok F ∧ NoErrors F) →
  TreeOf t' (without s.fs lost) → GoodNames t' → Sorted t' →
  ∀ id k, H id ≠ [] → mget s.fs (under (urnFolder id) k) ≠ none → lost (under (urnFolder id) k) = true → ¬ Ignored k →
    ¬ ∃ F, validateRoot S.w S.env S.plain S.blank (without s.fs lost) t' = .ok F ∧ NoErrors F

/-! ## Case -/

theorem av_inner : NoInnerObjects avDisk.fs avH := by
  intro id hid r v hv
  by_contra hne
  have hk := mem_mkeys_mget.2 hne
  rw [av_keys] at hk
  have key : ∀ k ∈ ["0=ocfl_1.1", "ocfl_spec.md", "extensions/0006-flat-omit-prefix-storage-layout/config.json",
      "extensions/NNNN-direct-clean-path-layout/config.json", "extensions/NNNN-direct-path-layout/config.json",
      "extensions/initial/config.json", "extensions/NNNN-gocfl-extension-manager/config.json", "a/0=ocfl_object_1.1", "a/v1/content/c/d",
      "a/v1/content/e", "a/v1/inventory.json", "a/v1/inventory.json.sha512", "a/inventory.json", "a/inventory.json.sha512"].map String.toList,
      3 ≤ (splitOn '/' k).length → (splitOn '/' k).getLast?.bind List.head? ≠ some '0' := by decide +kernel
  have e : splitOn '/' (under (urnFolder id) (r ++ '/' :: declName v)) = splitOn '/' (urnFolder id) ++ (splitOn '/' r ++ [declName v]) := by
    unfold under
    rw [splitOn_append, splitOn_append, splitOn_noSep (declName_noSlash hv)]
  refine key _ hk ?_ ?_
  · rw [e, List.length_append, List.length_append]
    have h1 := List.length_pos_of_ne_nil (splitOn_ne_nil '/' (urnFolder id))
    have h2 := List.length_pos_of_ne_nil (splitOn_ne_nil '/' r)
    simp only [List.length_singleton]
    omega
  · rw [e, ← List.append_assoc, List.getLast?_concat]
    rfl

theorem av_usual : ∀ id, avH id ≠ [] → RootUsual avSetup avDisk.fs (urnFolder id) (avH id).length := by
  intro id hid
  have he : id = "a".toList := by
    by_contra hc
    exact hid (by unfold avH; rw [if_neg hc])
  subst he
  refine ⟨rfl, decLt_le (by decide), by unfold GoodName; decide, ?_⟩
  intro _ n h0 hn
  have : n = 1 := by
    have : n ≤ 1 := hn
    omega
  subst this
  refine ⟨"e".toList, ?_⟩
  obtain ⟨b, hb⟩ := Option.ne_none_iff_exists'.1 (mem_mkeys_mget.1 (show "a/v1/content/e".toList ∈ mkeys avDisk.fs by rw [av_keys]; decide))
  exact ⟨b, hb⟩

theorem av_good : GoodNames avTree ∧ Sorted avTree :=
  ⟨goodNames_of_check (by decide) (by decide), sorted_of_check (by decide) (by decide)⟩

theorem av_valid : ∃ F, validateRoot exKeep exEnv false (blankInv [] []) avDisk.fs avTree = .ok F ∧ NoErrors F :=
  C197_validates_partial (S := avSetup) (h := rtHash) (H := avH) avSetup_default (codecWorld_codec _) (codecWorld_hex _) exKeep_lower (fun _ => rfl)
    rtHash_eq av_run av_clean av_tree av_good.1 av_good.2 av_usual

theorem av_mem {k : Str} (hk : k ∈ mkeys avDisk.fs) : mget avDisk.fs k ≠ none := mem_mkeys_mget.1 hk

/-- all files of the object are gone -/
def avLost : Str → Bool := fun k => hasPrefix k "a/".toList

def avRest : FDir := .file "0=ocfl_1.1".toList (.dir "extensions".toList avExt (.file "ocfl_spec.md".toList .nil))

theorem mkeys_without (fs : FS) (lost : Str → Bool) : mkeys (without fs lost) = (mkeys fs).filter (fun k => !lost k) := by
  unfold mkeys without
  rw [List.filter_map]
  rfl

theorem avRest_tree : TreeOf avRest (without avDisk.fs avLost) := by
  have hk := mkeys_without avDisk.fs avLost
  rw [av_keys] at hk
  exact treeOf_of_check (by decide) (by decide) (by rw [hk]; decide +kernel) (by rw [hk]; decide +kernel)

/-- **C198**: the loss of an object as a whole is not noticed. -/
theorem C198_full_fails : ¬ C198_full := by
  intro hf
  have G : GoodNames avRest := goodNames_of_check (by decide) (by decide)
  have hs : Sorted avRest := sorted_of_check (by decide) (by decide)
  have hid : avH "a".toList ≠ [] := by unfold avH; rw [if_pos rfl]; exact List.cons_ne_nil _ _
  refine hf avSetup rtHash avDisk avH avTree avRest avLost avSetup_default (codecWorld_codec _) (codecWorld_hex _) exKeep_lower (fun _ => rfl)
    rtHash_eq av_run av_clean av_inner av_tree av_good.1 av_good.2 rfl av_valid avRest_tree G hs "a".toList "v1/content/e".toList hid
    (av_mem (by rw [av_keys]; decide)) (by decide) (not_ignored_under (d := "v1".toList) (q := "content/e".toList) (by decide) (by decide) (by decide)) ?_
  refine (C198_loss_iff (S := avSetup) (h := rtHash) avSetup_default (codecWorld_codec _) (codecWorld_hex _) exKeep_lower (fun _ => rfl)
    rtHash_eq av_run av_clean av_inner av_tree av_good.1 av_good.2 rfl av_valid avRest_tree G hs).2 ⟨by decide, fun id hne => .inl ?_⟩
  have he : id = "a".toList := by
    by_contra hc
    exact hne (by unfold avH; rw [if_neg hc])
  subst he
  intro k _
  exact List.isPrefixOf_iff_prefix.2 ⟨k, rfl⟩

def avHole : FDir := .file "0=ocfl_1.1".toList (.dir "a".toList
  (.file "0=ocfl_object_1.1".toList (.file "inventory.json".toList (.file "inventory.json.sha512".toList (.dir "v1".toList
    (.dir "content".toList (.dir "c".toList (.file "d".toList .nil) .nil)
      (.file "inventory.json".toList (.file "inventory.json.sha512".toList .nil))) .nil))))
  (.dir "extensions".toList avExt (.file "ocfl_spec.md".toList .nil)))

/-- the hypotheses of C198 are met: one content file is gone, which is noticed -/
example : ¬ ∃ F, validateRoot exKeep exEnv false (blankInv [] []) (without avDisk.fs (fun k => k == "a/v1/content/e".toList)) avHole = .ok F ∧ NoErrors F := by
  have hk := mkeys_without avDisk.fs (fun k => k == "a/v1/content/e".toList)
  rw [av_keys] at hk
  exact C198_noticed_partial (S := avSetup) (h := rtHash) (H := avH) avSetup_default (codecWorld_codec _) (codecWorld_hex _) exKeep_lower (fun _ => rfl)
    rtHash_eq av_run av_clean av_inner av_tree av_good.1 av_good.2 rfl av_valid
    (treeOf_of_check (by decide) (by decide) (by rw [hk]; decide +kernel) (by rw [hk]; decide +kernel))
    (goodNames_of_check (by decide) (by decide)) (sorted_of_check (by decide) (by decide))
    (id := "a".toList) (k := "v1/content/e".toList) (k' := "inventory.json".toList)
    (by unfold avH; rw [if_pos rfl]; exact List.cons_ne_nil _ _)
    (av_mem (by rw [av_keys]; decide)) (by decide)
    (not_ignored_under (d := "v1".toList) (q := "content/e".toList) (by decide) (by decide) (by decide))
    (av_mem (by rw [av_keys]; decide)) (by decide)

end Gocfl
