import Verif.Model.RootCheck
import Verif.Props.Enumerate
import Verif.Props.NoFalseAlarm

/-!
# C81, C82: validation of a whole storage root
-/

namespace Gocfl

/-! ## Specification -/

/-- A storage root with exactly one declaration: a supported version, the right name and the right content; no other file
has a name with such a declaration in it. -/
structure RootDeclared (fs : FS) (v : Str) : Prop where
  supported : v ∈ ["1.0".toList, "1.1".toList, "2.0".toList]
  content : ∃ b, mget fs ("0=ocfl_".toList ++ v) = some b ∧
    (bytesStr b = "ocfl_".toList ++ v ++ "\n".toList ∨ bytesStr b = "ocfl_".toList ++ v ++ "\r\n".toList)
  only : ∀ n b, mget fs n = some b → '/' ∉ n → ∀ u, IsVersionNum u → ("0=ocfl_".toList ++ u).IsInfix n →
    n = "0=ocfl_".toList ++ v

/-- validation of the folder comes to an end and reports no error -/
def Accepted (w : World) (env : Env) (plain : Bool) (blank : Inv) (fs : FS) (folder : Str) : Prop :=
  ∃ F, checkFolder w env plain blank fs folder = .ok F ∧ NoErrors F

/-- the declared version of the object in the folder -/
def ObjVersion (fs : FS) (folder v : Str) : Prop :=
  IsVersionNum v ∧ ∃ b, mget fs (folder ++ '/' :: ("0=ocfl_object_".toList ++ v)) = some b

/-! ## Trees -/

theorem reach_unique {d x y : FDir} {p : List Str} (hn : GoodNames d) (hx : Reach d p x) (hy : Reach d p y) : x = y := by
  induction p generalizing d with
  | nil => rw [reach_nil hx, reach_nil hy]
  | cons n p ih =>
    cases hx with
    | step h1 t1 =>
      cases hy with
      | step h2 t2 =>
        have hnd := (hn [] d (.here d)).1
        have hnd : (d.dirs.map (·.1)).Nodup := (List.nodup_append.1 hnd).1
        have := mget_of_mem (m := d.dirs) hnd h1
        rw [mget_of_mem (m := d.dirs) hnd h2] at this
        cases this
        exact ih (hn.sub (.step h1 (.here _))) t1 t2

theorem reach_split {d x : FDir} {p q : List Str} (h : Reach d (p ++ q) x) : ∃ y, Reach d p y ∧ Reach y q x := by
  induction p generalizing d with
  | nil => exact ⟨d, .here d, h⟩
  | cons n p ih =>
    cases h with
    | step h1 t =>
      obtain ⟨y, h2, h3⟩ := ih t
      exact ⟨y, .step h1 h2, h3⟩

theorem recurse_of_dir {d sub : FDir} {n : Str} {base p : List Str} (hm : (n, sub) ∈ d.dirs)
    (hp : p ∈ recurseObjects (base ++ [n]) sub) : p ∈ recurseObjects base d ∨ base ∈ recurseObjects base d := by
  induction d with
  | nil => simp [FDir.dirs] at hm
  | file m rest ih =>
    rw [recurseObjects]
    split
    · exact ih hm
    · right; simp
  | dir m s rest _ ih =>
    simp only [FDir.dirs, List.mem_cons, Prod.mk.injEq] at hm
    rw [recurseObjects]
    rcases hm with ⟨rfl, rfl⟩ | hm
    · left; exact List.mem_append.2 (.inl hp)
    · rcases ih hm with h | h
      · left; exact List.mem_append.2 (.inr h)
      · right; exact List.mem_append.2 (.inr h)

theorem recurse_of_file {d : FDir} {m : Str} {base : List Str} (hm : m ∈ d.files) (hd : isDotName m = false) :
    base ∈ recurseObjects base d := by
  induction d with
  | nil => simp [FDir.files] at hm
  | file k rest ih =>
    rw [recurseObjects]
    split
    · rename_i hk
      simp only [FDir.files, List.mem_cons] at hm
      rcases hm with rfl | hm
      · rw [hk] at hd; cases hd
      · exact ih hm
    · simp
  | dir k s rest _ ih =>
    rw [recurseObjects]
    exact List.mem_append.2 (.inr (ih hm))

/-- every file is in or below a listed folder -/
theorem recurse_covers {d x : FDir} {p : List Str} (hr : Reach d p x) {m : Str} (hm : m ∈ x.files)
    (hd : isDotName m = false) (base : List Str) : ∃ q r, p = q ++ r ∧ base ++ q ∈ recurseObjects base d := by
  induction hr generalizing base with
  | here d => exact ⟨[], [], rfl, by rw [List.append_nil]; exact recurse_of_file hm hd⟩
  | @step d sub x n p h t ih =>
    obtain ⟨q, r, h1, h2⟩ := ih hm (base ++ [n])
    rcases recurse_of_dir h h2 with h3 | h3
    · exact ⟨n :: q, r, by rw [h1]; rfl, by simpa using h3⟩
    · exact ⟨[], n :: p, rfl, by simpa using h3⟩

theorem folders_cover {t x : FDir} (hn : GoodNames t) {p : List Str} (hr : Reach t p x) (hx : x.files ≠ [])
    (hp : p ≠ []) (he : p.head? ≠ some "extensions".toList) : ∃ q r, p = q ++ r ∧ q ≠ [] ∧ q ∈ getObjectFolders t := by
  obtain ⟨m, hm⟩ := List.exists_mem_of_ne_nil _ hx
  have hdot : isDotName m = false := (hn p x hr).2 m (List.mem_append.2 (.inr hm))
  cases hr with
  | here => exact absurd rfl hp
  | @step _ sub _ n p h tt =>
    obtain ⟨q, r, h1, h2⟩ := recurse_covers tt hm hdot [n]
    refine ⟨n :: q, r, by rw [h1]; rfl, by simp, ?_⟩
    refine getObjectFolders_of_dir h ?_ (by simpa using he) (by simpa using h2)
    exact (hn [] t (.here t)).2 n (List.mem_append.2 (.inl (List.mem_map.2 ⟨_, h, rfl⟩)))

/-! ## Declarations -/

theorem mem_topFiles {fs : FS} {e : DirEnt} :
    e ∈ topFiles fs ↔ ∃ n b, (n, b) ∈ fs ∧ '/' ∉ n ∧ e = ⟨n, false, some (bytesStr b)⟩ := by
  unfold topFiles
  rw [List.mem_filterMap]
  constructor
  · rintro ⟨⟨n, b⟩, h1, h2⟩
    split at h2
    · cases h2
    · rename_i hs
      cases h2; exact ⟨n, b, h1, hs, rfl⟩
  · rintro ⟨n, b, h1, h2, rfl⟩
    exact ⟨(n, b), h1, by rw [if_neg h2]⟩

theorem declExact_spec {pre s v : Str} : declExact pre s = some v ↔ IsVersionNum v ∧ s = "0=".toList ++ (pre ++ v) := by
  constructor
  · intro h
    unfold declExact at h
    split at h
    · rename_i v' hh
      split at h
      · rename_i he
        cases h
        exact ⟨(declHere_sound hh).1, he⟩
      · cases h
    · cases h
  · rintro ⟨h, rfl⟩
    unfold declExact
    rw [declHere_exact h]
    simp

theorem getVersion_version {pre v : Str} {es : List DirEnt} (h : getVersion pre es = .version v) :
    ∃ e, declFiles pre es = [(e, v)] ∧ DeclContentOk pre v e := by
  rw [getVersion_eq] at h
  split at h
  · cases h
  · rename_i e u r hf
    split at h
    · cases h
    · rename_i c hc
      split at h
      · cases h
      · rename_i hok
        split at h
        · rename_i hr
          cases h
          refine ⟨e, by rw [hf, hr], ?_⟩
          unfold DeclContentOk
          rw [hc]
          by_contra hcon
          rw [not_or] at hcon
          exact hok ⟨fun x => hcon.1 (by rw [x]), fun x => hcon.2 (by rw [x])⟩
        · cases h

theorem accepted_version {w : World} {env : Env} {plain : Bool} {blank : Inv} {fs : FS} {folder : Str}
    (h : Accepted w env plain blank fs folder) :
    ∃ v, getVersion objDecl (topFiles (subFS fs folder)) = .version v ∧ ObjVersion fs folder v ∧
      ∃ r, loadByFolder w env plain blank fs folder = .ok r := by
  obtain ⟨F, hF, hn⟩ := h
  obtain ⟨inv, f, g, h1, h2, h3, rfl⟩ := checkFolder_ok hF hn
  have h1' := h1
  unfold loadByFolder at h1
  split at h1
  swap; · cases h1
  rename_i v hv
  refine ⟨v, hv, ?_, _, h1'⟩
  obtain ⟨e, he, _⟩ := getVersion_version hv
  have hm : (e, v) ∈ declFiles objDecl (topFiles (subFS fs folder)) := by rw [he]; simp
  obtain ⟨h4, _, h5⟩ := mem_declFiles.1 hm
  obtain ⟨n, b, h6, h7, rfl⟩ := mem_topFiles.1 h4
  obtain ⟨hv1, hv2⟩ := declFind_sound h5
  have hk : n ∈ mkeys (subFS fs folder) := mem_mkeys_of_mem h6
  have hall : AllowedName n := by
    by_contra hc
    have hna : allowedFile n = false := by
      cases ha : allowedFile n with
      | true => exact absurd (allowedFile_spec ha) hc
      | false => rfl
    refine not_err_mem (noErrors_append.1 (noErrors_append.1 hn).2).1 (c := 1) (l := [n]) ?_
    unfold folderFnd
    refine List.mem_append.2 (.inl (List.mem_append.2 (.inr ?_)))
    exact List.mem_map.2 ⟨n, List.mem_filter.2 ⟨mem_topFileNames.2 ⟨hk, h7⟩, by simp [hna]⟩, rfl⟩
  have hget : ∃ b, mget fs (folder ++ '/' :: n) = some b := by
    have := mget_isSome_iff.2 hk
    rw [mget_subFS] at this
    exact Option.isSome_iff_exists.1 this
  refine ⟨hv1, ?_⟩
  rcases hall with ⟨c, x, hx, rfl⟩ | ⟨a, b', ha, hb', rfl⟩
  · exfalso
    have hsub : ∀ ch ∈ "0=ocfl_object_".toList, ch ∈ "inventory".toList ++ c :: ("json".toList ++ x) := by
      intro ch hch
      refine hv2.subset ?_
      rw [← List.append_assoc]
      have h9 : "0=".toList ++ objDecl = "0=ocfl_object_".toList := by decide
      rw [h9]
      exact List.mem_append.2 (.inl hch)
    have hc : ∀ ch, ch ∈ "inventory".toList ++ c :: ("json".toList ++ x) → ch = '=' ∨ ch = '_' → ch = c := by
      intro ch h8 h9
      simp only [List.mem_append, List.mem_cons] at h8
      rcases h8 with h8 | h8 | h8 | h8
      · rcases h9 with rfl | rfl <;> exact absurd h8 (by decide)
      · exact h8
      · rcases h9 with rfl | rfl <;> exact absurd h8 (by decide)
      · have : ∀ y ∈ ["".toList, ".sha512".toList, ".sha384".toList, ".sha256".toList, ".sha1".toList, ".md5".toList],
            '=' ∉ y ∧ '_' ∉ y := by decide
        rcases h9 with rfl | rfl
        · exact absurd h8 (this x hx).1
        · exact absurd h8 (this x hx).2
    have e1 := hc '=' (hsub _ (by decide)) (.inl rfl)
    have e2 := hc '_' (hsub _ (by decide)) (.inr rfl)
    rw [← e1] at e2
    exact absurd e2 (by decide)
  · have hnum : IsVersionNum (a ++ '.' :: b') := by
      unfold isDigits at ha hb'
      simp only [Bool.and_eq_true, Bool.not_eq_true', List.isEmpty_eq_false_iff, List.all_eq_true] at ha hb'
      exact ⟨a, b', ha.1, hb'.1, ha.2, hb'.2, rfl⟩
    have := declFind_exact (pre := objDecl) hnum
    have h5' : declFind objDecl ("0=ocfl_object_".toList ++ (a ++ '.' :: b')) = some v := h5
    have h8 : "0=".toList ++ (objDecl ++ (a ++ '.' :: b')) = "0=ocfl_object_".toList ++ (a ++ '.' :: b') := by
      unfold objDecl; simp
    rw [h8, h5'] at this
    cases this
    exact hget

theorem folderPath_snoc {q : List Str} (hq : q ≠ []) (n : Str) : folderPath (q ++ [n]) = folderPath q ++ '/' :: n := by
  unfold folderPath
  rw [joinWith_append hq (by simp)]
  rfl

theorem ObjVersion.isObject {t : FDir} {fs : FS} (T : TreeOf t fs) {q : List Str} {x : FDir} (hr : Reach t q x)
    (hn : GoodNames t) (hq : q ≠ []) {v : Str} (h : ObjVersion fs (folderPath q) v) : IsObjectDir x := by
  obtain ⟨hv, b, hb⟩ := h
  rw [← folderPath_snoc hq] at hb
  have hsl : '/' ∉ "0=ocfl_object_".toList ++ v := by
    obtain ⟨a, c, _, _, ha, hc, rfl⟩ := hv
    intro hm
    simp only [List.mem_append, List.mem_cons] at hm
    rcases hm with hm | hm | hm | hm
    · exact absurd hm (by decide)
    · exact absurd (ha _ hm) (by decide)
    · exact absurd hm (by decide)
    · exact absurd (hc _ hm) (by decide)
  obtain ⟨y, hy, hf⟩ := (T.files q ("0=ocfl_object_".toList ++ v) (by
    intro c hc
    rcases List.mem_append.1 hc with hc | hc
    · exact ((T.names q x hr).1 c hc).1
    · rw [List.mem_singleton.1 hc]; exact hsl)).2 ⟨b, hb⟩
  rw [reach_unique hn hr hy]
  exact ⟨_, hf, by rw [hasPrefix]; exact List.isPrefixOf_iff_prefix.2 (List.prefix_append _ _)⟩

/-! ## C81 -/

theorem loadRootFnd_quiet {fs : FS} {a : List Fnd} (h : loadRootFnd fs = .ok a) (hn : NoErrors a) :
    ∃ v, getVersion rootDecl (topFiles fs) = .version v ∧ supportedRoot v = true := by
  unfold loadRootFnd at h
  split at h
  · rename_i v hv
    split at h
    · rename_i hs; exact ⟨v, hv, hs⟩
    · cases h
  · cases h
    exact absurd (List.mem_append.2 (.inr (by simp))) (not_err_mem hn (c := 3) (l := []))
  · cases h

theorem rootDirFnd_quiet {fs : FS} (hn : NoErrors (rootDirFnd fs)) :
    ∃ v, (topFiles fs).filterMap (fun e => declExact rootDecl e.name) = [v] := by
  unfold rootDirFnd at hn
  split at hn
  · exact absurd (by simp) (not_err_mem hn (c := 76) (l := []))
  · rename_i v more hf
    cases more with
    | nil => exact ⟨v, hf⟩
    | cons u r => exact absurd (by simp) (not_err_mem hn (c := 76) (l := [u]))

theorem supportedRoot_iff {v : Str} : supportedRoot v = true ↔ v ∈ ["1.0".toList, "1.1".toList, "2.0".toList] := by
  unfold supportedRoot
  simp [or_assoc]

theorem supportedRoot_num {v : Str} (h : supportedRoot v = true) : IsVersionNum v := by
  have h := supportedRoot_iff.1 h
  simp only [List.mem_cons, List.not_mem_nil, or_false] at h
  rcases h with rfl | rfl | rfl
  · exact ⟨['1'], ['0'], by decide, by decide, by decide, by decide, rfl⟩
  · exact ⟨['1'], ['1'], by decide, by decide, by decide, by decide, rfl⟩
  · exact ⟨['2'], ['0'], by decide, by decide, by decide, by decide, rfl⟩

theorem declFind_infix {pre n u : Str} (hu : IsVersionNum u) (h : ("0=".toList ++ (pre ++ u)).IsInfix n) :
    ∃ v, declFind pre n = some v := by
  obtain ⟨a, b, rfl⟩ := h
  induction a with
  | nil =>
    have : ∃ v, declHere pre ("0=".toList ++ (pre ++ u) ++ b) = some v := by
      unfold declHere
      have hp : ("0=".toList ++ pre).isPrefixOf ("0=".toList ++ (pre ++ u) ++ b) = true := by
        rw [List.isPrefixOf_iff_prefix]
        exact ⟨u ++ b, by simp⟩
      rw [if_pos hp]
      have hd : List.drop ("0=".toList ++ pre).length ("0=".toList ++ (pre ++ u) ++ b) = u ++ b := by
        rw [show "0=".toList ++ (pre ++ u) ++ b = ("0=".toList ++ pre) ++ (u ++ b) by simp]
        exact List.drop_left
      rw [hd]
      obtain ⟨x, y, hx, hy, hxd, hyd, rfl⟩ := hu
      have h1 := declTakeWhile_all (p := Char.isDigit) hxd (b := '.' :: (y ++ b)) (by
        intro c r h; rw [← (List.cons.inj h).1]; decide)
      unfold numMatch
      have e : x ++ '.' :: y ++ b = x ++ '.' :: (y ++ b) := by simp
      rw [e]
      simp only [h1.1, h1.2]
      rw [if_neg hx]
      cases y with
      | nil => exact absurd rfl hy
      | cons c y =>
        have hc := hyd c (by simp)
        rw [List.cons_append, List.takeWhile_cons, hc]
        simp
    obtain ⟨v, hv⟩ := this
    have hcons : ([] : Str) ++ ("0=".toList ++ (pre ++ u)) ++ b = '0' :: ('=' :: (pre ++ u) ++ b) := rfl
    rw [List.nil_append]
    have hcons : "0=".toList ++ (pre ++ u) ++ b = '0' :: ('=' :: (pre ++ u) ++ b) := rfl
    rw [hcons] at hv ⊢
    rw [declFind, hv]
    exact ⟨v, rfl⟩
  | cons c a ih =>
    obtain ⟨v, hv⟩ := ih
    rw [List.cons_append, List.cons_append, declFind]
    split
    · exact ⟨_, rfl⟩
    · exact ⟨v, hv⟩

theorem rootDeclared_of {fs : FS} {a : List Fnd} (h : loadRootFnd fs = .ok a) (hn : NoErrors a)
    (hd : NoErrors (rootDirFnd fs)) (hnd : (mkeys fs).Nodup) : ∃ v, RootDeclared fs v ∧ rootVersion fs = v := by
  obtain ⟨v, hv, hs⟩ := loadRootFnd_quiet h hn
  obtain ⟨v', hv'⟩ := rootDirFnd_quiet hd
  obtain ⟨e, he, hc⟩ := getVersion_version hv
  have hm : v' ∈ (topFiles fs).filterMap (fun e => declExact rootDecl e.name) := by rw [hv']; simp
  obtain ⟨e', he', hx⟩ := List.mem_filterMap.1 hm
  obtain ⟨hnum, hname⟩ := declExact_spec.1 hx
  have hdf : ∀ e'' ∈ topFiles fs, ∀ u, declFind rootDecl e''.name = some u → e'' = e ∧ u = v := by
    intro e'' h1 u h2
    have : (e'', u) ∈ declFiles rootDecl (topFiles fs) := by
      refine mem_declFiles.2 ⟨h1, ?_, h2⟩
      obtain ⟨n, b, _, _, rfl⟩ := mem_topFiles.1 h1; rfl
    rw [he] at this
    simpa using this
  obtain ⟨rfl, rfl⟩ := hdf e' he' v' (by rw [hname]; exact declFind_exact hnum)
  obtain ⟨n, b, hb, hsl, rfl⟩ := mem_topFiles.1 he'
  have hname : n = "0=ocfl_".toList ++ v' := hname
  refine ⟨v', ⟨supportedRoot_iff.1 hs, ⟨b, ?_, ?_⟩, ?_⟩, ?_⟩
  · rw [← hname]; exact mget_of_mem hnd hb
  · unfold DeclContentOk at hc
    simpa [rootDecl] using hc
  · intro m b' hb' hm u hu hinf
    obtain ⟨x, hx⟩ := declFind_infix (pre := rootDecl) hu hinf
    have := (hdf ⟨m, false, some (bytesStr b')⟩ (mem_topFiles.2 ⟨m, b', mem_of_mget hb', hm, rfl⟩) x hx).1
    simp only [DirEnt.mk.injEq] at this
    rw [this.1, hname]
  · unfold rootVersion; rw [hv']

theorem validateRoot_ok {w : World} {env : Env} {plain : Bool} {blank : Inv} {fs : FS} {t : FDir} {F : List Fnd}
    (h : validateRoot w env plain blank fs t = .ok F) :
    ∃ a b, loadRootFnd fs = .ok a ∧ checkObjects w env plain blank fs (getObjectFolders t) = .ok b ∧
      F = a ++ (rootDirFnd fs ++ b) := by
  unfold validateRoot at h
  obtain ⟨a, ha, h⟩ := res_bind_eq_ok.1 h
  obtain ⟨b, hb, h⟩ := res_bind_eq_ok.1 h
  cases h
  exact ⟨a, b, ha, hb, rfl⟩

/-- `a.b` is not greater than `c.d` -/
def VersionLe (x y : Str) : Prop :=
  ∀ a b c d : Str, x = a ++ '.' :: b → y = c ++ '.' :: d → isDigits a = true → isDigits b = true → isDigits c = true →
    isDigits d = true → digitsVal (a ++ b) * 10 ^ d.length ≤ digitsVal (c ++ d) * 10 ^ b.length

theorem decVal_eq {a b : Str} (ha : isDigits a = true) (hb : isDigits b = true) :
    decVal (a ++ '.' :: b) = (digitsVal (a ++ b), b.length) := by
  unfold isDigits at ha hb
  simp only [Bool.and_eq_true, List.all_eq_true] at ha hb
  unfold decVal
  have h1 := declTakeWhile_all (p := Char.isDigit) ha.2 (b := '.' :: b) (by
    intro c r h; rw [← (List.cons.inj h).1]; decide)
  rw [h1.2, List.filter_append, List.filter_eq_self.2 ha.2, List.filter_cons, List.filter_eq_self.2 hb.2]
  simp [show Char.isDigit '.' = false by decide]

theorem decLt_le {x y : Str} (h : decLt y x = false) : VersionLe x y := by
  intro a b c d hx hy ha hb hc hd
  subst hx hy
  unfold decLt at h
  rw [decVal_eq ha hb, decVal_eq hc hd] at h
  simpa using h

theorem checkRootFolder_quiet {w : World} {env : Env} {plain : Bool} {blank : Inv} {fs : FS} {folder : Str} :
    (∃ F, checkRootFolder w env plain blank fs folder = .ok F ∧ NoErrors F) ↔
      Accepted w env plain blank fs folder ∧
        ∀ v, getVersion objDecl (topFiles (subFS fs folder)) = .version v → decLt (rootVersion fs) v = false := by
  constructor
  · rintro ⟨F, hF, hn⟩
    unfold checkRootFolder at hF
    obtain ⟨g, hg, hF⟩ := res_bind_eq_ok.1 hF
    cases hF
    have hacc : Accepted w env plain blank fs folder := ⟨g, hg, (noErrors_append.1 hn).2⟩
    refine ⟨hacc, ?_⟩
    intro v hv
    obtain ⟨_, _, _, r, hr⟩ := accepted_version hacc
    have h1 := (noErrors_append.1 hn).1
    unfold objVersionFnd at h1
    simp only [hv, hr] at h1
    split at h1
    · exact absurd (List.mem_singleton.2 rfl) (not_err_mem h1)
    · rename_i hlt
      simpa using hlt
  · rintro ⟨⟨g, hg, hn⟩, h⟩
    unfold checkRootFolder
    refine ⟨_, res_bind_eq_ok.2 ⟨g, hg, rfl⟩, noErrors_append.2 ⟨?_, hn⟩⟩
    obtain ⟨v, hv, _, r, hr⟩ := accepted_version ⟨g, hg, hn⟩
    unfold objVersionFnd
    simp only [hv, hr, h v hv]
    simp [NoErrors]

/-- **C81.** If validation of a storage root comes to an end without error, the root has exactly one declaration, of a
supported version and with the right content; and every folder with files, outside of the root itself and its
`extensions`, is or is inside of an object folder that validation of that object alone accepts and whose version is not
newer than the root's. -/
theorem C81_accepted_root {w : World} {env : Env} {plain : Bool} {blank : Inv} {fs : FS} {t : FDir} {F : List Fnd}
    (h : validateRoot w env plain blank fs t = .ok F) (hn : NoErrors F) (T : TreeOf t fs) (G : GoodNames t)
    (hnd : (mkeys fs).Nodup) :
    ∃ v, RootDeclared fs v ∧
      ∀ p x, Reach t p x → x.files ≠ [] → p ≠ [] → p.head? ≠ some "extensions".toList →
        ∃ q r u, p = q ++ r ∧ IsObjectFolder t q ∧ Accepted w env plain blank fs (folderPath q) ∧
          ObjVersion fs (folderPath q) u ∧ VersionLe u v := by
  obtain ⟨a, b, ha, hb, rfl⟩ := validateRoot_ok h
  obtain ⟨na, nb⟩ := noErrors_append.1 hn
  obtain ⟨nd, nb⟩ := noErrors_append.1 nb
  obtain ⟨v, hv, hrv⟩ := rootDeclared_of ha na nd hnd
  refine ⟨v, hv, ?_⟩
  intro p x hr hx hp he
  obtain ⟨q, r, rfl, hq, hmem⟩ := folders_cover G hr hx hp he
  obtain ⟨g, hg, hgn⟩ := collect_noErrors hb nb hmem
  obtain ⟨hacc, hle⟩ := checkRootFolder_quiet.1 ⟨g, hg, hgn⟩
  obtain ⟨u, hu, hou, _⟩ := accepted_version hacc
  obtain ⟨y, hy, _⟩ := reach_split hr
  refine ⟨q, r, u, rfl, ⟨y, hy, hou.isObject T hy G hq, hq, ?_⟩, hacc, hou, decLt_le ?_⟩
  · intro hh
    apply he
    cases q with
    | nil => exact absurd rfl hq
    | cons n q => simpa using hh
  · rw [← hrv]; exact hle u hu

/-- C81 for a root without objects inside of objects: every object is accepted. -/
theorem C81_every_object {w : World} {env : Env} {plain : Bool} {blank : Inv} {fs : FS} {t : FDir} {F : List Fnd}
    (h : validateRoot w env plain blank fs t = .ok F) (hn : NoErrors F) (T : TreeOf t fs) (G : GoodNames t)
    (hnd : (mkeys fs).Nodup) (hnest : NoNesting t) {p : List Str} (hp : IsObjectFolder t p) :
    Accepted w env plain blank fs (folderPath p) := by
  obtain ⟨v, _, hall⟩ := C81_accepted_root h hn T G hnd
  obtain ⟨x, hr, hx, hne, hext⟩ := hp
  have hf : x.files ≠ [] := by
    obtain ⟨n, hn, _⟩ := hx
    intro h0; rw [h0] at hn; cases hn
  obtain ⟨q, r, u, rfl, ⟨y, hy, hyo, _, _⟩, hacc, _⟩ := hall p x hr hf hne hext
  obtain ⟨y', h1, h2⟩ := reach_split hr
  have := reach_unique G hy h1
  subst this
  have hr0 : r = [] := hnest q y r x hy hyo h2 hx
  subst hr0
  rw [List.append_nil]; exact hacc

theorem topFiles_names_nodup {fs : FS} (h : (mkeys fs).Nodup) : ((topFiles fs).map (·.name)).Nodup := by
  unfold topFiles
  induction fs with
  | nil => simp
  | cons e fs ih =>
    simp only [mkeys, List.map_cons, List.nodup_cons] at h
    rw [List.filterMap_cons]
    split
    · exact ih h.2
    · rename_i x hx
      split at hx
      · cases hx
      · cases hx
        rw [List.map_cons, List.nodup_cons]
        refine ⟨?_, ih h.2⟩
        intro hm
        obtain ⟨y, hy, hyn⟩ := List.mem_map.1 hm
        obtain ⟨⟨n, b⟩, hz, hy⟩ := List.mem_filterMap.1 hy
        split at hy
        · cases hy
        · cases hy
          apply h.1
          have hyn : n = e.1 := hyn
          rw [← hyn]
          exact List.mem_map.2 ⟨(n, b), hz, rfl⟩

theorem split_unique {es : List DirEnt} {e : DirEnt} (h : e ∈ es) (hnd : (es.map (·.name)).Nodup) :
    ∃ l r, es = l ++ e :: r ∧ ∀ x ∈ l ++ r, x.name ≠ e.name := by
  obtain ⟨l, r, rfl⟩ := List.append_of_mem h
  refine ⟨l, r, rfl, ?_⟩
  intro x hx he
  simp only [List.map_append, List.map_cons, List.nodup_append, List.nodup_cons] at hnd
  rcases List.mem_append.1 hx with hx | hx
  · exact hnd.2.2 x.name (List.mem_map.2 ⟨x, hx, rfl⟩) e.name (by simp) he
  · exact hnd.2.1.1 (List.mem_map.2 ⟨x, hx, he⟩)

theorem RootDeclared.quiet {fs : FS} {v : Str} (D : RootDeclared fs v) (hnd : (mkeys fs).Nodup) :
    loadRootFnd fs = .ok [] ∧ rootDirFnd fs = [] ∧ rootVersion fs = v := by
  have hs := supportedRoot_iff.2 D.supported
  have hnum := supportedRoot_num hs
  obtain ⟨b, hb, hc⟩ := D.content
  have hsl : '/' ∉ "0=ocfl_".toList ++ v := by
    have h := D.supported
    simp only [List.mem_cons, List.not_mem_nil, or_false] at h
    rcases h with rfl | rfl | rfl <;> decide
  have hname : "0=ocfl_".toList ++ v = "0=".toList ++ (rootDecl ++ v) := by unfold rootDecl; simp
  have hmem : (⟨"0=ocfl_".toList ++ v, false, some (bytesStr b)⟩ : DirEnt) ∈ topFiles fs :=
    mem_topFiles.2 ⟨_, b, mem_of_mget hb, hsl, rfl⟩
  obtain ⟨l, r, hes, hlr⟩ := split_unique hmem (topFiles_names_nodup hnd)
  have hother : ∀ x ∈ l ++ r, declFind rootDecl x.name = none := by
    intro x hx
    cases hf : declFind rootDecl x.name with
    | none => rfl
    | some u =>
      obtain ⟨h1, h2⟩ := declFind_sound hf
      have hx' : x ∈ topFiles fs := by
        rw [hes]; rcases List.mem_append.1 hx with hx | hx <;> simp [hx]
      obtain ⟨n, b', h3, h4, rfl⟩ := mem_topFiles.1 hx'
      exact absurd (D.only n b' (mget_of_mem hnd h3) h4 u h1 h2) (hlr _ hx)
  have hnil : ∀ m : List DirEnt, (∀ x ∈ m, x ∈ l ++ r) → declFiles rootDecl m = [] := by
    intro m hm
    by_contra hne
    obtain ⟨⟨x, u⟩, hx⟩ := List.exists_mem_of_ne_nil _ hne
    obtain ⟨h1, _, h2⟩ := mem_declFiles.1 hx
    rw [hother x (hm x h1)] at h2; cases h2
  have hnil' : ∀ m : List DirEnt, (∀ x ∈ m, x ∈ l ++ r) → m.filterMap (fun e => declExact rootDecl e.name) = [] := by
    intro m hm
    rw [List.filterMap_eq_nil_iff]
    intro x hx
    cases hf : declExact rootDecl x.name with
    | none => rfl
    | some u =>
      obtain ⟨h1, h2⟩ := declExact_spec.1 hf
      have := declFind_exact (pre := rootDecl) h1
      rw [← h2, hother x (hm x hx)] at this; cases this
  have hdf : declFiles rootDecl (topFiles fs) = [(⟨"0=ocfl_".toList ++ v, false, some (bytesStr b)⟩, v)] := by
    rw [hes, declFiles_append, declFiles_cons, hnil l (fun x h => by simp [h]), hnil r (fun x h => by simp [h])]
    simp only [Bool.false_eq_true, if_false, hname, declFind_exact hnum]
    rfl
  have hex : (topFiles fs).filterMap (fun e => declExact rootDecl e.name) = [v] := by
    rw [hes, List.filterMap_append, List.filterMap_cons, hnil' l (fun x h => by simp [h]),
      hnil' r (fun x h => by simp [h])]
    simp only [hname, declExact_spec.2 ⟨hnum, rfl⟩]
    rfl
  have hgv : getVersion rootDecl (topFiles fs) = .version v := by
    rw [getVersion_eq, hdf]
    simp only
    rw [if_neg]
    · simp
    · rintro ⟨h1, h2⟩
      rcases hc with h | h
      · exact h1 h
      · exact h2 h
  refine ⟨?_, ?_, ?_⟩
  · unfold loadRootFnd; rw [hgv]; simp [hs]
  · unfold rootDirFnd; rw [hex]; rfl
  · unfold rootVersion; rw [hex]

theorem isVersionNum_digits {v : Str} (h : IsVersionNum v) :
    ∃ a b, isDigits a = true ∧ isDigits b = true ∧ v = a ++ '.' :: b := by
  obtain ⟨a, b, ha, hb, hda, hdb, rfl⟩ := h
  refine ⟨a, b, ?_, ?_, rfl⟩ <;>
  · unfold isDigits
    simp only [Bool.and_eq_true, Bool.not_eq_true', List.isEmpty_eq_false_iff, List.all_eq_true]
    constructor <;> assumption

theorem versionNum_slash {v : Str} (hv : IsVersionNum v) : '/' ∉ "0=ocfl_object_".toList ++ v := by
  obtain ⟨a, c, _, _, ha, hc, rfl⟩ := hv
  intro hm
  simp only [List.mem_append, List.mem_cons] at hm
  rcases hm with hm | hm | hm | hm
  · exact absurd hm (by decide)
  · exact absurd (ha _ hm) (by decide)
  · exact absurd hm (by decide)
  · exact absurd (hc _ hm) (by decide)

theorem objVersion_unique {fs : FS} {folder u v : Str} (h : getVersion objDecl (topFiles (subFS fs folder)) = .version v)
    (hu : ObjVersion fs folder u) : u = v := by
  obtain ⟨e, he, _⟩ := getVersion_version h
  obtain ⟨hnum, b, hb⟩ := hu
  have hb : mget (subFS fs folder) ("0=ocfl_object_".toList ++ u) = some b := by rw [mget_subFS]; exact hb
  have hm : ((⟨"0=ocfl_object_".toList ++ u, false, some (bytesStr b)⟩ : DirEnt), u) ∈
      declFiles objDecl (topFiles (subFS fs folder)) := by
    refine mem_declFiles.2 ⟨mem_topFiles.2 ⟨_, b, mem_of_mget hb, versionNum_slash hnum, rfl⟩, rfl, ?_⟩
    have := declFind_exact (pre := objDecl) hnum
    have h8 : "0=".toList ++ (objDecl ++ u) = "0=ocfl_object_".toList ++ u := by unfold objDecl; simp
    rw [h8] at this
    exact this
  rw [he] at hm
  have := List.mem_singleton.1 hm
  exact congrArg Prod.snd this

/-- C81, also the other way round, for storage hierarchies as the standard describes them (outside of objects only the
root contains files): validation accepts the root exactly if its declaration is right, every object is accepted on its
own, and none is newer than the root.  Missing: other trees, where stray files are taken for objects. -/
theorem C81_accepted_iff_partial {w : World} {env : Env} {plain : Bool} {blank : Inv} {fs : FS} {t : FDir}
    (G : GoodNames t) (hnd : (mkeys fs).Nodup) (hnest : NoNesting t) (hh : RootHierarchy t) :
    (∃ F, validateRoot w env plain blank fs t = .ok F ∧ NoErrors F) ↔
      ∃ v, RootDeclared fs v ∧ ∀ p, IsObjectFolder t p → Accepted w env plain blank fs (folderPath p) ∧
        ∀ u, ObjVersion fs (folderPath p) u → VersionLe u v := by
  have hlist := (C58_exact_partial G hnest hh).2
  constructor
  · rintro ⟨F, h, hn⟩
    obtain ⟨a, b, ha, hb, rfl⟩ := validateRoot_ok h
    obtain ⟨na, nb⟩ := noErrors_append.1 hn
    obtain ⟨nd, nb⟩ := noErrors_append.1 nb
    obtain ⟨v, hv, hrv⟩ := rootDeclared_of ha na nd hnd
    refine ⟨v, hv, fun p hp => ?_⟩
    obtain ⟨g, hg, hgn⟩ := collect_noErrors hb nb ((hlist p).2 hp)
    obtain ⟨hacc, hle⟩ := checkRootFolder_quiet.1 ⟨g, hg, hgn⟩
    refine ⟨hacc, fun u hu => decLt_le ?_⟩
    obtain ⟨u', hu', _⟩ := accepted_version hacc
    rw [objVersion_unique hu' hu, ← hrv]
    exact hle u' hu'
  · rintro ⟨v, D, hall⟩
    obtain ⟨h1, h2, h3⟩ := D.quiet hnd
    have hq : ∀ p ∈ getObjectFolders t, ∃ F, checkRootFolder w env plain blank fs (folderPath p) = .ok F ∧ NoErrors F := by
      intro p hp
      obtain ⟨hacc, hle⟩ := hall p ((hlist p).1 hp)
      refine checkRootFolder_quiet.2 ⟨hacc, fun u hu => ?_⟩
      obtain ⟨u', hu', hou, _⟩ := accepted_version hacc
      rw [hu] at hu'
      cases hu'
      obtain ⟨a, b, ha, hb, hau⟩ := isVersionNum_digits hou.1
      obtain ⟨c, d, hc, hd, hcv⟩ := isVersionNum_digits (supportedRoot_num (supportedRoot_iff.2 D.supported))
      have := hle u hou a b c d hau hcv ha hb hc hd
      rw [h3]
      unfold decLt
      rw [hau, hcv, decVal_eq ha hb, decVal_eq hc hd]
      simpa using this
    obtain ⟨b, hb⟩ := collect_ok_iff.2 (fun p hp => let ⟨F, hF, _⟩ := hq p hp; ⟨F, hF⟩)
    refine ⟨[] ++ ([] ++ b), ?_, ?_⟩
    · unfold validateRoot checkObjects
      rw [h1, h2]
      exact res_bind_eq_ok.2 ⟨[], rfl, res_bind_eq_ok.2 ⟨b, hb, rfl⟩⟩
    · refine noErrors_collect hb (fun p hp g hg => ?_)
      obtain ⟨F, hF, hn⟩ := hq p hp
      rw [hF] at hg; cases hg; exact hn

/-! ## C82 -/

/-- **C82, in full**: validation of a storage root comes to an end and reports what validation of each of its objects on
its own reports. -/
def C82_full : Prop :=
  ∀ (w : World) (env : Env) (plain : Bool) (blank : Inv) (fs : FS) (t : FDir), TreeOf t fs → GoodNames t → NoNesting t →
    RootHierarchy t → ∃ F, validateRoot w env plain blank fs t = .ok F ∧
      ∀ p, IsObjectFolder t p → ∀ g, checkFolder w env plain blank fs (folderPath p) = .ok g → ∀ x ∈ g, x ∈ F

/-- C82, where validation comes to an end: everything found about any object is reported, and everything reported is
about an object or the root.  Missing: it need not come to an end. -/
theorem C82_all_reported_partial {w : World} {env : Env} {plain : Bool} {blank : Inv} {fs : FS} {t : FDir}
    (G : GoodNames t) (hnest : NoNesting t) (hh : RootHierarchy t) {F : List Fnd}
    (h : validateRoot w env plain blank fs t = .ok F) {p : List Str} (hp : IsObjectFolder t p) :
    ∃ g, checkFolder w env plain blank fs (folderPath p) = .ok g ∧ ∀ x ∈ g, x ∈ F := by
  obtain ⟨a, b, ha, hb, rfl⟩ := validateRoot_ok h
  have hmem := ((C58_exact_partial G hnest hh).2 p).2 hp
  obtain ⟨g, hg⟩ := collect_ok_iff.1 ⟨b, hb⟩ p hmem
  have hg' := hg
  unfold checkRootFolder at hg'
  obtain ⟨g', hg1, hg2⟩ := res_bind_eq_ok.1 hg'
  cases hg2
  refine ⟨g', hg1, fun x hx => ?_⟩
  exact List.mem_append.2 (.inr (List.mem_append.2 (.inr ((mem_collect hb x).2
    ⟨p, hmem, _, hg, List.mem_append.2 (.inr hx)⟩))))

/-- **C82, exactly when it holds.** Validation comes to an end exactly if the root's declaration can be loaded (there is
none, or one with the right content and of a supported version) and validation of every object comes to an end. -/
theorem C82_completes_iff {w : World} {env : Env} {plain : Bool} {blank : Inv} {fs : FS} {t : FDir}
    (G : GoodNames t) (hnest : NoNesting t) (hh : RootHierarchy t) :
    (∃ F, validateRoot w env plain blank fs t = .ok F) ↔
      (getVersion rootDecl (topFiles fs) = .none ∨
        ∃ v, getVersion rootDecl (topFiles fs) = .version v ∧ v ∈ ["1.0".toList, "1.1".toList, "2.0".toList]) ∧
      ∀ p, IsObjectFolder t p → ∃ g, checkFolder w env plain blank fs (folderPath p) = .ok g := by
  constructor
  · rintro ⟨F, h⟩
    refine ⟨?_, fun p hp => let ⟨g, hg, _⟩ := C82_all_reported_partial G hnest hh h hp; ⟨g, hg⟩⟩
    obtain ⟨a, _, ha, _, _⟩ := validateRoot_ok h
    unfold loadRootFnd at ha
    split at ha
    · rename_i v hv
      split at ha
      · rename_i hs; exact .inr ⟨v, hv, supportedRoot_iff.1 hs⟩
      · cases ha
    · rename_i hv; exact .inl hv
    · cases ha
  · rintro ⟨hd, hall⟩
    have hload : ∃ a, loadRootFnd fs = .ok a := by
      unfold loadRootFnd
      rcases hd with hd | ⟨v, hd, hs⟩
      · rw [hd]; exact ⟨_, rfl⟩
      · rw [hd]; simp only [supportedRoot_iff.2 hs, if_true]; exact ⟨_, rfl⟩
    obtain ⟨a, ha⟩ := hload
    have : ∃ b, checkObjects w env plain blank fs (getObjectFolders t) = .ok b := by
      refine collect_ok_iff.2 (fun p hp => ?_)
      obtain ⟨g, hg⟩ := hall p (((C58_exact_partial G hnest hh).2 p).1 hp)
      exact ⟨_, res_bind_eq_ok.2 ⟨g, hg, rfl⟩⟩
    obtain ⟨b, hb⟩ := this
    exact ⟨_, res_bind_eq_ok.2 ⟨a, ha, res_bind_eq_ok.2 ⟨b, hb, rfl⟩⟩⟩

/-- C82 is violated: one object whose validation does not come to an end hides the findings about all objects. -/
theorem C82_full_fails_one_bad {w : World} {env : Env} {plain : Bool} {blank : Inv} {fs : FS} {t : FDir}
    (G : GoodNames t) (hnest : NoNesting t) (hh : RootHierarchy t) {p : List Str} (hp : IsObjectFolder t p)
    (hbad : ¬ ∃ g, checkFolder w env plain blank fs (folderPath p) = .ok g) :
    ¬ ∃ F, validateRoot w env plain blank fs t = .ok F :=
  fun h => hbad (((C82_completes_iff G hnest hh).1 h).2 p hp)

/-- C82 is violated: with a wrong declaration of the root no object is validated at all. -/
theorem C82_full_fails_declaration {w : World} {env : Env} {plain : Bool} {blank : Inv} {fs : FS} {t : FDir} {v : Str}
    (h : getVersion rootDecl (topFiles fs) = .invalid v) : ¬ ∃ F, validateRoot w env plain blank fs t = .ok F := by
  rintro ⟨F, hF⟩
  obtain ⟨a, _, ha, _⟩ := validateRoot_ok hF
  unfold loadRootFnd at ha
  rw [h] at ha
  cases ha

/-! ## Examples -/

/-- the paths of all files -/
def FDir.paths : FDir → List (List Str)
  | .nil => []
  | .file n rest => [n] :: rest.paths
  | .dir n sub rest => sub.paths.map (n :: ·) ++ rest.paths

theorem nil_not_mem_paths {d : FDir} : [] ∉ d.paths := by
  induction d with
  | nil => simp [FDir.paths]
  | file n rest ih => simpa [FDir.paths] using ih
  | dir n sub rest ih1 ih2 => simpa [FDir.paths] using ih2

theorem mem_paths {d : FDir} {p : List Str} {n : Str} : p ++ [n] ∈ d.paths ↔ ∃ x, Reach d p x ∧ n ∈ x.files := by
  induction d generalizing p with
  | nil =>
    simp only [FDir.paths, List.not_mem_nil, false_iff]
    rintro ⟨x, hr, hx⟩
    cases hr with
    | here => simp [FDir.files] at hx
    | step h _ => simp [FDir.dirs] at h
  | file m rest ih =>
    rw [FDir.paths, List.mem_cons, ih]
    constructor
    · rintro (h | ⟨x, hr, hx⟩)
      · cases p with
        | nil =>
          simp only [List.nil_append, List.cons.injEq, and_true] at h
          exact ⟨_, .here _, by simp [FDir.files, h]⟩
        | cons a p => simp at h
      · cases hr with
        | here => exact ⟨_, .here _, by simp [FDir.files, hx]⟩
        | step h t => exact ⟨x, .step h t, hx⟩
    · rintro ⟨x, hr, hx⟩
      cases hr with
      | here =>
        simp only [FDir.files, List.mem_cons] at hx
        rcases hx with rfl | hx
        · exact .inl rfl
        · exact .inr ⟨_, .here _, hx⟩
      | step h t => exact .inr ⟨x, .step h t, hx⟩
  | dir m sub rest ih1 ih2 =>
    rw [FDir.paths, List.mem_append, ih2]
    constructor
    · rintro (h | ⟨x, hr, hx⟩)
      · obtain ⟨q, hq, he⟩ := List.mem_map.1 h
        cases p with
        | nil =>
          simp only [List.nil_append, List.cons.injEq] at he
          rw [he.2] at hq
          exact absurd hq nil_not_mem_paths
        | cons a p =>
          simp only [List.cons_append, List.cons.injEq] at he
          obtain ⟨rfl, rfl⟩ := he
          obtain ⟨x, hr, hx⟩ := ih1.1 hq
          exact ⟨x, .step (by simp [FDir.dirs]) hr, hx⟩
      · cases hr with
        | here => exact ⟨_, .here _, hx⟩
        | step h t => exact ⟨x, .step (by simp [FDir.dirs, h]) t, hx⟩
    · rintro ⟨x, hr, hx⟩
      cases hr with
      | here => exact .inr ⟨_, .here _, hx⟩
      | step h t =>
        simp only [FDir.dirs, List.mem_cons, Prod.mk.injEq] at h
        rcases h with ⟨rfl, rfl⟩ | h
        · refine .inl (List.mem_map.2 ⟨_, ih1.2 ⟨x, t, hx⟩, rfl⟩)
        · exact .inr ⟨x, .step h t, hx⟩

/-- names without slash here -/
def slashHere (d : FDir) : Bool :=
  ((d.dirs.map (·.1)) ++ d.files).all (fun n => !decide ('/' ∈ n) && !n.isEmpty)

theorem reach_names {d x : FDir} {p : List Str} (h1 : slashHere d = true) (h2 : d.all slashHere = true)
    (hr : Reach d p x) : (∀ c ∈ p, '/' ∉ c ∧ c ≠ []) ∧ ∀ n ∈ x.files, '/' ∉ n ∧ n ≠ [] := by
  have key : ∀ y : FDir, slashHere y = true → ∀ n ∈ (y.dirs.map (·.1)) ++ y.files, '/' ∉ n ∧ n ≠ [] := by
    intro y hy n hn
    have := List.all_eq_true.1 hy n hn
    simpa using this
  have hall : ∀ q y, Reach d q y → slashHere y = true := by
    intro q y hq
    cases q with
    | nil => rw [reach_nil hq]; exact h1
    | cons n q => exact FDir.all_reach h2 (by simp) hq
  refine ⟨?_, fun n hn => key x (hall p x hr) n (List.mem_append.2 (.inr hn))⟩
  intro c hc
  obtain ⟨l, r, rfl⟩ := List.append_of_mem hc
  obtain ⟨y, hy, hy2⟩ := reach_split hr
  cases hy2 with
  | step h _ => exact key y (hall _ _ hy) c (List.mem_append.2 (.inl (List.mem_map.2 ⟨_, h, rfl⟩)))

theorem treeOf_of_check {t : FDir} {fs : FS} (h1 : slashHere t = true) (h2 : t.all slashHere = true)
    (h3 : ∀ k ∈ mkeys fs, splitOn '/' k ∈ t.paths) (h4 : ∀ q ∈ t.paths, folderPath q ∈ mkeys fs) : TreeOf t fs where
  names := fun _ _ hr => reach_names h1 h2 hr
  files := by
    intro p n hs
    rw [← mem_paths]
    constructor
    · intro h
      exact Option.isSome_iff_exists.1 (mget_isSome_iff.2 (h4 _ h))
    · rintro ⟨b, hb⟩
      have := h3 _ (mget_isSome_iff.1 (by rw [hb]; rfl))
      unfold folderPath at this
      rw [splitOn_joinWith_noSep (by simp) hs] at this
      exact this

/-- a storage root with the example object in folder `o` -/
def okRootFS : FS := ("0=ocfl_1.1".toList, asBytes "ocfl_1.1\n".toList) :: ockFS

def okRootTree : FDir :=
  .file "0=ocfl_1.1".toList (.dir "o".toList
    (.file "0=ocfl_object_1.1".toList (.file "inventory.json".toList (.file "inventory.json.sha512".toList
      (.dir "v1".toList (.dir "content".toList (.file "a".toList .nil)
        (.file "inventory.json".toList (.file "inventory.json.sha512".toList .nil))) .nil)))) .nil)

theorem okRoot_tree : TreeOf okRootTree okRootFS :=
  treeOf_of_check (by decide) (by decide) (by decide) (by decide)

theorem okRoot_good : GoodNames okRootTree := goodNames_of_check (by decide) (by decide)

theorem okRoot_noNesting : NoNesting okRootTree := noNesting_of_check (by decide) (by decide)

theorem okRoot_hierarchy : RootHierarchy okRootTree := by
  refine ⟨.inr (.inl ⟨objHere_iff.1 (by decide), _, _, rfl⟩), trivial⟩

theorem okRoot_accepted : validateRoot ockWorld exEnv false ockInv okRootFS okRootTree = .ok [] := by decide

theorem okRoot_object : IsObjectFolder okRootTree ["o".toList] :=
  ⟨_, .step (List.Mem.head _) (.here _), objHere_iff.1 (by decide), by simp, by decide⟩

example : Accepted ockWorld exEnv false ockInv okRootFS (folderPath ["o".toList]) :=
  C81_every_object okRoot_accepted (by simp [NoErrors]) okRoot_tree okRoot_good (by decide) okRoot_noNesting okRoot_object

example : ∃ v, RootDeclared okRootFS v := by
  obtain ⟨v, h, _⟩ := C81_accepted_root okRoot_accepted (by simp [NoErrors]) okRoot_tree okRoot_good (by decide)
  exact ⟨v, h⟩

/-- two objects, the first one without content of its version -/
def badRootFS : FS :=
  ("0=ocfl_1.1".toList, asBytes "ocfl_1.1\n".toList) ::
    (ockNoContent ++ ockFS.map (fun e => ('p' :: e.1.drop 1, e.2)))

def ockTree (content : Bool) (rest : FDir) (name : Str) : FDir :=
  .dir name
    (.file "0=ocfl_object_1.1".toList (.file "inventory.json".toList (.file "inventory.json.sha512".toList
      (.dir "v1".toList (if content then .dir "content".toList (.file "a".toList .nil)
        (.file "inventory.json".toList (.file "inventory.json.sha512".toList .nil)) else
        (.file "inventory.json".toList (.file "inventory.json.sha512".toList .nil))) .nil)))) rest

def badRootTree : FDir := .file "0=ocfl_1.1".toList (ockTree false (ockTree true .nil "p".toList) "o".toList)

/-- **C82 is violated** by a root with two objects: the second one is fine and accepted, the first one has a version
without content; nothing is reported about either. -/
theorem C82_full_fails : ¬ C82_full := by
  intro h
  obtain ⟨F, hF, _⟩ := h ockWorld exEnv false ockInv badRootFS badRootTree
    (treeOf_of_check (by decide) (by decide) (by decide) (by decide)) (goodNames_of_check (by decide) (by decide))
    (noNesting_of_check (by decide) (by decide))
    ⟨.inr (.inl ⟨objHere_iff.1 (by decide), _, _, rfl⟩),
      .inr (.inl ⟨objHere_iff.1 (by decide), _, _, rfl⟩), trivial⟩
  have : ∃ e, validateRoot ockWorld exEnv false ockInv badRootFS badRootTree = .error e :=
    match hv : validateRoot ockWorld exEnv false ockInv badRootFS badRootTree with
    | .error e => ⟨e, rfl⟩
    | .ok x => by
      have : (validateRoot ockWorld exEnv false ockInv badRootFS badRootTree).isOk = false := by decide
      rw [hv] at this; cases this
  obtain ⟨e, he⟩ := this
  rw [he] at hF; cases hF

example : checkFolder ockWorld exEnv false ockInv badRootFS "p".toList = .ok [] := by decide

example : ¬ ∃ F, validateRoot ockWorld exEnv false ockInv
    (("0=ocfl_1.1".toList, asBytes "ocfl_1.0\n".toList) :: ockFS) okRootTree = .ok F :=
  C82_full_fails_declaration (v := "1.1".toList) (by decide)

end Gocfl
