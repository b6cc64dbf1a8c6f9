import Verif.Props.DefaultConfig
import Verif.Props.RootCheck
import Verif.Props.Life

/-! # C197: a storage root made and filled by the program, and its own validation -/

namespace Gocfl

/-! ## What every object has besides -/

/-- all the inventories of its versions, and the declaration it was created with -/
structure Complete (a : CreateArgs) (fs : FS) (N : Nat) : Prop where
  inventories : ∀ n : Nat, 0 < n → n ≤ N → mget fs (verInvPath (verName 0 (n : Int))) ≠ none
  declaration : mget fs (declName a.version) ≠ none
  number : IsVersionNum a.version

section
variable {w : World} {h : Bytes → Str} {a : CreateArgs} {id : Str}

theorem Complete.next {fs : FS} {N : Nat} {t : List FsOp} {r : RawInv} (C : Complete a fs N) (V : ValidObject w (applyOps fs t) 0 (N + 1) r) :
    Complete a (applyOps fs t) (N + 1) := by
  refine ⟨fun n h0 hn => ?_, applyOps_keeps C.declaration, C.number⟩
  by_cases hle : n ≤ N
  · exact applyOps_keeps (C.inventories n h0 hle)
  · have : n = N + 1 := by omega
    subst this
    obtain ⟨b, hb, _⟩ := V.last
    rw [V.inv.head] at hb
    intro hc
    have hc : mget (applyOps fs t) (verInvPath (verName ((0 : Nat) : Int) ((N + 1 : Nat) : Int))) = none := hc
    rw [hb] at hc; cases hc

theorem complete_rounds (hc : Codec w) (hx : HexHash w) (hL : LowerHash w) (ht : ∀ t, w.time (w.time t) = w.time t) {rs : List Round} :
    ∀ {fs : FS} {inv : Inv} {H H' : History} {s : Session} {dup : Bool} {files : List InFile}, InArchive w h a id fs inv H →
      s.rounds = rs → Deposit w h a id dup s.first files H → AutoRounds w (Deposit w h a id) rs (H ++ [After w s.first files H.last]) H' →
      (session w inv s).err = none → Complete a fs H.length → Complete a (applyOps fs (session w inv s).obj.trace) H'.length := by
  induction rs with
  | nil =>
    intro fs inv H H' s dup files A hr D R he C
    cases R
    obtain ⟨q, h1, _⟩ := A.next hc hx hL ht (D.unFirst hr) he
    rw [List.length_append]
    exact C.next h1
  | cons r rs ih =>
    intro fs inv H H' s dup files A hr D R he C
    have he1 := session_first_ok A.staged.ok.wf hr he
    obtain ⟨q1, V1, A1, R1, hcl⟩ := A.next hc hx hL ht D he1
    have S1 := session_staged hc hx hL ht A.staged hcl
    have M1 := A1.memory R1 (by rw [List.length_append]; exact S1)
    obtain ⟨t, f, _, k2⟩ := session_rounds A.staged.ok.wf hr hcl.completes hcl.modified
    cases R with
    | cons dup' files' D' R' =>
      obtain ⟨hrun, _⟩ := archived_rounds hc hx hL ht (s := s.follow r rs) M1 rfl D' R' (k2.err.symm.trans he)
      have C2 := ih (s := s.follow r rs) M1 rfl D' R' (k2.err.symm.trans he) (by rw [List.length_append]; exact C.next V1)
      rw [List.length_append] at hrun
      obtain ⟨_, hsame⟩ := rounds_same hc hx hL ht A.staged hr hcl hrun
      exact ⟨fun n h0 hn => by rw [hsame]; exact C2.inventories n h0 hn, by rw [hsame]; exact C2.declaration, C2.number⟩

end

section
variable {w : World} {env : Env} {plain : Bool} {blank : Inv} {ls : List (Str → Res Str)} {a : CreateArgs} {h : Bytes → Str}

theorem init_decl (a : CreateArgs) (id : Str) : mget (applyOps [] (initObject a [] id).1) (declName a.version) ≠ none := by
  have e : (initObject a [] id).1 = writeFile (declName a.version) (asBytes (objDecl ++ a.version ++ "\n".toList)) := rfl
  rw [e]
  unfold writeFile
  rw [applyOps_cons]
  refine applyOps_keeps ?_
  show mget (mset [] (declName a.version) _) _ ≠ none
  rw [mget_mset_self]; simp

theorem complete_keep {fs : FS} {f : Str} {N : Nat} {t : List FsOp} (C : Complete a (subFS fs f) N) : Complete a (subFS (applyOps fs t) f) N := by
  refine ⟨fun n h0 hn => ?_, ?_, C.number⟩
  · have := C.inventories n h0 hn
    rw [mget_subFS] at this ⊢
    exact applyOps_keeps this
  · have := C.declaration
    rw [mget_subFS] at this ⊢
    exact applyOps_keeps this

theorem keepRun_complete (hc : Codec w) (hx : HexHash w) (hL : LowerHash w) (ht : ∀ t, w.time (w.time t) = w.time t)
    (hh : w.hash a.alg = some h) {fs : FS} {H : Str → History} (hr : KeepRun w env plain blank ls a (AutoSession w (Deposit w h a)) fs H) :
    ∀ id, H id ≠ [] → Complete a (subFS fs (rootPath ls id).1) (H id).length := by
  have hstep : ∀ {id : Str} {fs : FS} {inv : Inv} {s : Session} {H H' : History}, Archived w h a id fs inv H →
      AutoSession w (Deposit w h a) id s H H' →
      (session w inv s).err = none → ∃ r, ValidObject w (applyOps fs (session w inv s).obj.trace) 0 H'.length r ∧
        Archived w h a id (applyOps fs (session w inv s).obj.trace) (loadedInv 0 r) H' := by
    rintro id fs inv s H H' A ⟨dup, files, D, R⟩ he
    exact (archived_rounds hc hx hL ht A.toInArchive rfl D R he).2
  induction hr with
  | start fs => exact fun id hid => absurd rfl hid
  | aside t _ ho ih => exact fun id hid => complete_keep (ih id hid)
  | @add fs H id s H' _ hga hex hap hD he ih =>
    intro i hi
    by_cases hii : i = id
    · subst hii
      simp only [if_true]
      have hadd : addCmd w env plain blank ls a fs i s = addObjectByPath w env plain blank ls a fs i s := by
        unfold addCmd; rw [hex]
      rw [hadd] at he ⊢
      unfold addObjectByPath at he ⊢
      rw [hex] at he ⊢
      simp only at he ⊢
      cases hcr : (createObject ls a fs i).2 with
      | error e => rw [hcr] at he; cases he
      | ok x =>
        obtain ⟨folder, inv⟩ := x
        rw [hcr] at he
        simp only at he ⊢
        obtain ⟨rfl, hinv, hemp, hops⟩ := createObject_ok hcr
        have hini : (initObject a [] i).2 = .ok inv := by
          unfold createObject at hcr
          simp only [hemp] at hcr
          obtain ⟨j, hj, hcr⟩ := res_bind_eq_ok.1 hcr
          split at hcr
          · cases hcr
          · cases hcr; exact hj
        have hops' : (createObject ls a fs i).1 = (initObject a [] i).1.map (FsOp.lift (rootPath ls i).1) := by
          unfold createObject; simp only [hemp]
        have hsub : subFS (applyOps fs ((createObject ls a fs i).1 ++ (inFolder (rootPath ls i).1 (session w inv s)).1)) (rootPath ls i).1 =
            applyOps (applyOps [] (initObject a [] i).1) (session w inv s).obj.trace := by
          rw [applyOps_append]
          unfold inFolder
          rw [subFS_applyOps_lift, hops', subFS_applyOps_lift, hemp]
        rw [hsub]
        obtain ⟨dup, files, D, R⟩ := hD
        refine complete_rounds hc hx hL ht (archived_new hga hh hini).toInArchive rfl D R he ⟨fun n h0 hn => ?_, ?_, hga.version⟩
        · simp at hn; omega
        · exact init_decl a i
    · simp only [if_neg hii] at hi ⊢
      exact complete_keep (ih i hi)
  | @update fs H id s H' hrun hid hD he ih =>
    intro i hi
    by_cases hii : i = id
    · subst hii
      simp only [if_true]
      obtain ⟨hroot, r0, O0, A0⟩ := (keepRun_holds hh hstep hrun).1 i hid
      obtain ⟨f0, hl⟩ := loadByID_valid env plain blank hroot O0
      have hex : objectExists ls fs i = .ok true := by
        cases hx : objectExists ls fs i with
        | error e => unfold objectExists at hx; rw [hroot] at hx; cases hx
        | ok b =>
          have : b = true := by
            rw [C94_exists_exact _ _ _ _ hx]
            obtain ⟨num, _, hd, _⟩ := A0.intact.decl
            exact ⟨_, _, by rw [← mget_subFS]; exact hd⟩
          rw [this]
      have hupd : updateCmd w env plain blank ls a fs i s = inFolder (rootPath ls i).1 (session w (loadedInv 0 r0) s) := by
        unfold updateCmd addObjectByPath
        simp only [hex, hl]
      rw [hupd] at he ⊢
      have hsub : subFS (applyOps fs (inFolder (rootPath ls i).1 (session w (loadedInv 0 r0) s)).1) (rootPath ls i).1 =
          applyOps (subFS fs (rootPath ls i).1) (session w (loadedInv 0 r0) s).obj.trace := subFS_applyOps_lift _ _ _
      rw [hsub]
      obtain ⟨dup, files, D, R⟩ := hD
      exact complete_rounds hc hx hL ht A0.toInArchive rfl D R he (ih i hid)
    · simp only [if_neg hii] at hi ⊢
      exact complete_keep (ih i hi)

end

/-! ## Listing the objects -/

theorem mem_folders_iff {d : FDir} {p : List Str} :
    p ∈ getObjectFolders d ↔ ∃ n sub, (n, sub) ∈ d.dirs ∧ isDotName n = false ∧ n ≠ "extensions".toList ∧ p ∈ recurseObjects [n] sub := by
  induction d with
  | nil => simp [getObjectFolders, FDir.dirs]
  | file n rest ih => simpa [getObjectFolders, FDir.dirs] using ih
  | dir n sub rest _ ih =>
    simp only [getObjectFolders, FDir.dirs, List.mem_append, List.mem_cons, Prod.mk.injEq]
    rw [ih]
    constructor
    · rintro (h | ⟨m, s, h1, h2⟩)
      · by_cases hc : (isDotName n || decide (n = "extensions".toList)) = true
        · rw [if_pos hc] at h; cases h
        · rw [if_neg hc] at h
          rw [Bool.or_eq_true, not_or, Bool.not_eq_true, decide_eq_true_eq] at hc
          exact ⟨n, sub, .inl ⟨rfl, rfl⟩, hc.1, hc.2, h⟩
      · exact ⟨m, s, .inr h1, h2⟩
    · rintro ⟨m, s, ⟨rfl, rfl⟩ | h1, h2, h3, h4⟩
      · left
        rw [if_neg (by rw [Bool.or_eq_true, not_or, Bool.not_eq_true, decide_eq_true_eq]; exact ⟨h2, h3⟩)]
        exact h4
      · exact .inr ⟨m, s, h1, h2, h3, h4⟩

/-- entries in the order of `ReadDir` -/
def Sorted (t : FDir) : Prop := ∀ p x, Reach t p x → x.names.Pairwise (fun a b => strLt a b = true)

/-- a folder with a file that comes before all its folders that are not empty is listed, and nothing in it -/
theorem recurse_object {d : FDir} (hs : d.names.Pairwise (fun a b => strLt a b = true)) {n : Str} (hf : n ∈ d.files)
    (hdot : ∀ m ∈ d.files, isDotName m = false)
    (hd : ∀ e ∈ d.dirs, (∃ q x, Reach e.2 q x ∧ x.files ≠ []) → strLt n e.1 = true) (base : List Str) : recurseObjects base d = [base] := by
  induction d with
  | nil => simp [FDir.files] at hf
  | file m rest _ =>
    unfold recurseObjects
    rw [if_neg (by rw [hdot m (by simp [FDir.files])]; simp)]
  | dir m sub rest _ ih =>
    unfold recurseObjects
    have h0 : recurseObjects (base ++ [m]) sub = [] := by
      by_contra hne
      obtain ⟨p, hp⟩ := List.exists_mem_of_ne_nil _ hne
      obtain ⟨q, x, _, hq, y, hy, _⟩ := mem_recurseObjects hp
      have h1 := (List.pairwise_cons.1 hs).1 n (FDir.file_mem_names (d := rest) hf)
      have h2 := hd (m, sub) (by simp [FDir.dirs]) ⟨q, x, hq, fun h => by rw [h] at hy; cases hy⟩
      have h3 : strLe n m = false := by simpa [strLt] using h1
      have h4 : strLe m n = false := by simpa [strLt] using h2
      rcases strLe_total n m with h5 | h5
      · rw [h3] at h5; cases h5
      · rw [h4] at h5; cases h5
    rw [h0, List.nil_append]
    exact ih (List.pairwise_cons.1 hs).2 hf hdot (fun e he => hd e (List.mem_cons_of_mem _ he))

/-- **C81**, for any tree, if the declaration of the root is right: it validates if and only if every folder that is listed does, none of
them newer than the root. -/
theorem validateRoot_iff {w : World} {env : Env} {plain : Bool} {blank : Inv} {fs : FS} {t : FDir} {v : Str} (D : RootDeclared fs v)
    (hnd : (mkeys fs).Nodup) :
    (∃ F, validateRoot w env plain blank fs t = .ok F ∧ NoErrors F) ↔
      ∀ p ∈ getObjectFolders t, Accepted w env plain blank fs (folderPath p) ∧ ∀ u, ObjVersion fs (folderPath p) u → VersionLe u v := by
  obtain ⟨h1, h2, h3⟩ := D.quiet hnd
  constructor
  · rintro ⟨F, h, hn⟩ p hp
    obtain ⟨a, b, ha, hb, rfl⟩ := validateRoot_ok h
    obtain ⟨na, nb⟩ := noErrors_append.1 hn
    obtain ⟨nd, nb⟩ := noErrors_append.1 nb
    obtain ⟨g, hg, hgn⟩ := collect_noErrors hb nb hp
    obtain ⟨hacc, hle⟩ := checkRootFolder_quiet.1 ⟨g, hg, hgn⟩
    refine ⟨hacc, fun u hu => decLt_le ?_⟩
    obtain ⟨u', hu', _⟩ := accepted_version hacc
    rw [objVersion_unique hu' hu, ← h3]
    exact hle u' hu'
  · intro hall
    have hq : ∀ p ∈ getObjectFolders t, ∃ F, checkRootFolder w env plain blank fs (folderPath p) = .ok F ∧ NoErrors F := by
      intro p hp
      obtain ⟨hacc, hle⟩ := hall p hp
      refine checkRootFolder_quiet.2 ⟨hacc, fun u hu => ?_⟩
      obtain ⟨u', hu', hou, _⟩ := accepted_version hacc
      rw [hu] at hu'
      cases hu'
      obtain ⟨a, b, ha, hb, hau⟩ := isVersionNum_digits hou.1
      obtain ⟨c, d, hc, hd, hcv⟩ := isVersionNum_digits (supportedRoot_num (supportedRoot_iff.2 D.supported))
      have := hle u hou a b c d hau hcv ha hb hc hd
      rw [h3]
      unfold decLt
      rw [hau, hcv, decVal_eq ha hb, decVal_eq hc hd]
      simpa using this
    obtain ⟨b, hb⟩ := collect_ok_iff.2 (fun p hp => let ⟨F, hF, _⟩ := hq p hp; ⟨F, hF⟩)
    refine ⟨[] ++ ([] ++ b), ?_, ?_⟩
    · unfold validateRoot checkObjects
      rw [h1, h2]
      exact res_bind_eq_ok.2 ⟨[], rfl, res_bind_eq_ok.2 ⟨b, hb, rfl⟩⟩
    · refine noErrors_collect hb (fun p hp g hg => ?_)
      obtain ⟨F, hF, hn⟩ := hq p hp
      rw [hF] at hg; cases hg; exact hn


/-! ## The files of the storage root -/

/-- the root as it was made, with nothing added but below the folders of objects -/
structure RootTidy (S : Setup) (fs : FS) : Prop where
  nodup : (mkeys fs).Nodup
  declared : RootDeclared fs S.new.init.version
  places : ∀ p, mget fs p ≠ none → '/' ∈ p → (∃ r, p = under "extensions".toList r) ∨ ∃ id r, UrnId id ∧ p = under (urnFolder id) r

theorem RootDeclared.keep {fs : FS} {v : Str} {t : List FsOp} (D : RootDeclared fs v) (h : ∀ op ∈ t, '/' ∈ op.path) :
    RootDeclared (applyOps fs t) v := by
  have hk : ∀ n, '/' ∉ n → mget (applyOps fs t) n = mget fs n := fun n hn => mget_applyOps_ne (fun op hop he => hn (he ▸ h op hop))
  refine ⟨D.supported, ?_, fun n b hb hn => D.only n b (by rw [← hk n hn]; exact hb) hn⟩
  obtain ⟨b, hb, hc⟩ := D.content
  refine ⟨b, ?_, hc⟩
  rw [hk _ ?_]; · exact hb
  have := D.supported
  simp only [List.mem_cons, List.not_mem_nil, or_false] at this
  rcases this with h1 | h1 | h1 <;> rw [h1] <;> decide

theorem RootTidy.step {S : Setup} {fs : FS} {t : List FsOp} {id : Str} (T : RootTidy S fs) (hid : UrnId id)
    (h : ∀ op ∈ t, ∃ p, op.path = under (urnFolder id) p) : RootTidy S (applyOps fs t) := by
  refine ⟨applyOps_nodup T.nodup _, T.declared.keep ?_, ?_⟩
  · intro op hop
    obtain ⟨p, hp⟩ := h op hop
    rw [hp]; unfold under; simp
  · intro p hp hs
    rcases mget_applyOps_some hp with h1 | ⟨op, hop, rfl⟩
    · exact T.places p h1 hs
    · obtain ⟨r, hr⟩ := h op hop
      exact .inr ⟨id, r, hid, hr⟩

theorem tidy_init {S : Setup} (d : DefaultConfig S) {s : RootDisk}
    (hi : initRoot S.new.T S.new.folders S.new.init S.new.mgr S.new.layouts ⟨[], []⟩ = (s, none)) : RootTidy S s.fs := by
  unfold initRoot at hi
  split at hi
  · rename_i hv
    rw [if_pos ⟨rfl, rfl⟩] at hi
    obtain ⟨report, src, ho, hn, hs, hc⟩ := (default_good d).source
    have hok := initOk_of (a := S.new.init) hv d.docs makeLayout_slash ho hn hs hc (default_good d).rules
    obtain ⟨h1, h2, h3, _⟩ := init_state hok (layouts := S.new.layouts) d.text rfl
    have hs := (congrArg (fun x => x.1.fs) hi).symm
    simp only at hs
    rw [hs]
    refine ⟨h1, init_declared hok h2 h3, fun p hp hsl => .inl ?_⟩
    obtain ⟨x, hx, h1⟩ := List.mem_map.1 (h3 p hp)
    rcases List.mem_append.1 hx with hx | hx
    · exact absurd (h1 ▸ hsl) (initTop_noSlash hok _ (List.mem_map.2 ⟨x, hx, rfl⟩))
    · rcases List.mem_append.1 hx with hx | hx
      · obtain ⟨y, _, rfl⟩ := List.mem_map.1 hx
        exact ⟨_, (show "extensions".toList ++ '/' :: (y.1 ++ "/config.json".toList) = p from h1).symm⟩
      · obtain ⟨y, _, rfl⟩ := List.mem_map.1 hx
        rw [← h1] at hsl
        exact absurd hsl (by show '/' ∉ "ocfl_layout.json".toList; decide)
  · cases hi

theorem tidy_run {S : Setup} {D : Str → Session → History → History → Prop} (d : DefaultConfig S) {s : RootDisk} {H : Str → History}
    (hr : UserRun S UrnId D s H) : RootTidy S s.fs := by
  have G := default_good d
  have L := default_lasting d
  have hls : S.layouts (restarted S.hashes S.new.mgr) = S.layouts S.new.mgr := usedLayouts_restarted G.exts L.reloads L.survive
  have hby : ∀ {fs : FS} {id : Str} {se : Session}, UrnId id → ∀ op ∈ (addObjectByPath S.w S.env S.plain S.blank (S.layouts S.new.mgr) S.args fs id se).1,
      ∃ p, op.path = under (urnFolder id) p := by
    intro fs id se hid op hop
    obtain ⟨p, hp⟩ := byPath_under hop
    rw [default_root d hid] at hp
    exact ⟨p, hp⟩
  induction hr with
  | init ok => exact tidy_init d ok
  | @create u c files H' hfo hid hga hD hok =>
    generalize hi : initRoot S.new.T S.new.folders S.new.init S.new.mgr S.new.layouts ⟨[], []⟩ = i at *
    cases hir : i.2 with
    | some e =>
      exfalso
      unfold createRun at hok
      simp only [hfo, hi, hir] at hok
      cases hok
    | none =>
      have T := tidy_init d (s := i.1) (by rw [hi, ← hir])
      have hr' : (createRun S.w S.env S.plain S.blank (S.layouts S.new.mgr) S.new S.args u c ⟨[], []⟩).1 =
          ⟨applyOps i.1.fs (addObjectByPath S.w S.env S.plain S.blank (S.layouts S.new.mgr) S.args i.1.fs c.id (c.session files)).1,
            i.1.made⟩ := by
        unfold createRun
        simp only [hfo, hi, hir]
        split <;> rfl
      rw [hr']
      exact T.step hid (hby hid)
  | @add s H m v empty id se H' hrun hopen hid hga hex hfresh hD hok ih =>
    have hm := ((procRun_keep G L (userRun_proc d hrun).1).1 empty).symm.trans hopen
    have hm' : m = restarted S.hashes S.new.mgr := by cases hm; rfl
    rw [hm', hls] at hex ⊢
    unfold addCmd
    rw [hex]
    exact ih.step hid (hby hid)
  | @update s H m v empty id se H' hrun hopen hid hD hok ih =>
    have hm := ((procRun_keep G L (userRun_proc d hrun).1).1 empty).symm.trans hopen
    have hm' : m = restarted S.hashes S.new.mgr := by cases hm; rfl
    rw [hm', hls]
    unfold updateCmd
    split
    · exact ih
    · exact ih
    · exact ih.step ((userRun_proc d hrun).2 id hid) (hby ((userRun_proc d hrun).2 id hid))
  | @broken s H m v empty id se t hrun hopen hid hfresh hcr ih =>
    have hm := ((procRun_keep G L (userRun_proc d hrun).1).1 empty).symm.trans hopen
    have hm' : m = restarted S.hashes S.new.mgr := by cases hm; rfl
    rw [hm', hls] at hcr
    refine ih.step hid (fun op hop => ?_)
    obtain ⟨op', h1, h2⟩ := hcr.path hop
    obtain ⟨p, hp⟩ := hby hid op' h1
    exact ⟨p, h2.symm.trans hp⟩


/-! ## Which folders are listed -/

theorem decl_before {w : World} {fs : FS} {N : Nat} {r : RawInv} (O : ValidObject w fs 0 N r) (num : Str) {d q : Str} {b : Bytes}
    (hb : mget fs (d ++ '/' :: q) = some b) (hd : '/' ∉ d) : strLt (declName num) d = true := by
  have key : ∀ (c : Char) (x : Str), ('0' : Char) < c → strLt (declName num) (c :: x) = true := by
    intro c x hc
    have e : declName num = '0' :: ('=' :: (objDecl ++ num)) := rfl
    have h1 : ('0' : Char).toNat < c.toNat := hc
    rw [e]
    unfold strLt strLe
    rw [if_neg (by omega), decide_eq_false (by omega)]
    rfl
  rcases O.dirs d q b hb hd with h | rfl | rfl
  · obtain ⟨n, _, _, rfl⟩ := (O.inv.mem_keys _).1 h
    have h1 := verName_head ((0 : Nat) : Int) n
    cases hv : verName ((0 : Nat) : Int) (n : Int) with
    | nil => rw [hv] at h1; cases h1
    | cons c x =>
      rw [hv] at h1
      cases h1
      exact key _ _ (by decide)
  · exact key _ _ (by decide)
  · exact key _ _ (by decide)

theorem folderPath_cons (n : Str) {q : List Str} (hq : q ≠ []) : folderPath (n :: q) = n ++ '/' :: folderPath q := by
  unfold folderPath
  have := joinWith_append (sep := '/') (a := [n]) (b := q) (by simp) hq
  simpa [joinWith] using this

theorem tree_file {t : FDir} {fs : FS} (T : TreeOf t fs) {p : List Str} {x : FDir} (hr : Reach t p x) {m : Str} (hm : m ∈ x.files) :
    ∃ b, mget fs (folderPath (p ++ [m])) = some b := by
  obtain ⟨h1, h2⟩ := T.names p x hr
  refine (T.files p m ?_).1 ⟨x, hr, hm⟩
  intro c hc
  rcases List.mem_append.1 hc with hc | hc
  · exact (h1 c hc).1
  · rw [List.mem_singleton.1 hc]; exact (h2 m hm).1

theorem declName_noSlash {num : Str} (h : IsVersionNum num) : '/' ∉ declName num := by
  obtain ⟨a, c, _, _, ha, hc, rfl⟩ := h
  intro hm
  have hm : '/' ∈ "0=ocfl_object_".toList ++ (a ++ '.' :: c) := hm
  simp only [List.mem_append, List.mem_cons] at hm
  rcases hm with hm | hm | hm | hm
  · exact absurd hm (by decide)
  · exact absurd (ha _ hm) (by decide)
  · exact absurd hm (by decide)
  · exact absurd (hc _ hm) (by decide)

/-- the folder of an object is listed, and nothing inside of it -/
theorem object_recurse {w : World} {t : FDir} {fs : FS} (T : TreeOf t fs) (G : GoodNames t) (hs : Sorted t) {f : Str} (hf : '/' ∉ f) {N : Nat} {r : RawInv}
    (O : ValidObject w (subFS fs f) 0 N r) {x : FDir} (hx : (f, x) ∈ t.dirs) : recurseObjects [f] x = [[f]] := by
  have hr : Reach t [f] x := .step hx (.here _)
  obtain ⟨num, hnum, hdec, _⟩ := O.decl
  rw [mget_subFS] at hdec
  have hsl := declName_noSlash hnum
  obtain ⟨y, hy, hdf⟩ := (T.files [f] (declName num) (by
    intro c hc
    rcases List.mem_append.1 hc with hc | hc
    · rw [List.mem_singleton.1 hc]; exact hf
    · rw [List.mem_singleton.1 hc]; exact hsl)).2 ⟨_, hdec⟩
  rw [← reach_unique G hr hy] at hdf
  refine recurse_object (hs _ _ hr) hdf (fun m hm => (G _ _ hr).2 m (List.mem_append.2 (.inr hm))) ?_ [f]
  rintro ⟨e, sub⟩ he ⟨q, z, hz, hne⟩
  obtain ⟨m, hm⟩ := List.exists_mem_of_ne_nil _ hne
  have hr2 : Reach t (f :: e :: q) z := .step hx (.step he hz)
  obtain ⟨b, hb⟩ := tree_file T hr2 hm
  have he1 := ((T.names _ _ hr2).1 e (by simp)).1
  have e1 : folderPath (f :: e :: q ++ [m]) = under f (e ++ '/' :: folderPath (q ++ [m])) := by
    show folderPath (f :: (e :: (q ++ [m]))) = _
    rw [folderPath_cons _ (by simp), folderPath_cons _ (by simp)]
    rfl
  rw [e1, ← mget_subFS] at hb
  exact decl_before O num hb he1

/-- nothing was left behind by commands that did not come to their end -/
def NoLeftovers (fs : FS) (H : Str → History) : Prop := ∀ id, UrnId id → H id = [] → ∀ r, mget fs (under (urnFolder id) r) = none

section
variable {S : Setup} {h : Bytes → Str} {s : RootDisk} {H : Str → History} {t : FDir}

/-- what is known of every object -/
theorem run_objects (d : DefaultConfig S) (hc : Codec S.w) (hx : HexHash S.w) (hL : LowerHash S.w) (ht : ∀ t, S.w.time (S.w.time t) = S.w.time t)
    (hh : S.w.hash S.args.alg = some h) (hr : UserRun S UrnId (AutoSession S.w (Deposit S.w h S.args)) s H) :
    ∀ id, H id ≠ [] → UrnId id ∧ Complete S.args (subFS s.fs (urnFolder id)) (H id).length ∧
      ∃ r, ValidObject S.w (subFS s.fs (urnFolder id)) 0 (H id).length r ∧ Archived S.w h S.args id (subFS s.fs (urnFolder id)) (loadedInv 0 r) (H id) := by
  obtain ⟨h1, h2⟩ := userRun_proc d hr
  have K := (procRun_keep (default_good d) (default_lasting d) h1).2
  intro id hid
  have hstep : ∀ {id : Str} {fs : FS} {inv : Inv} {s : Session} {H H' : History}, Archived S.w h S.args id fs inv H →
      AutoSession S.w (Deposit S.w h S.args) id s H H' →
      (session S.w inv s).err = none → ∃ r, ValidObject S.w (applyOps fs (session S.w inv s).obj.trace) 0 H'.length r ∧
        Archived S.w h S.args id (applyOps fs (session S.w inv s).obj.trace) (loadedInv 0 r) H' := by
    rintro id fs inv s H H' A ⟨dup, files, D, R⟩ he
    exact (archived_rounds hc hx hL ht A.toInArchive rfl D R he).2
  have hC := keepRun_complete hc hx hL ht hh K id hid
  obtain ⟨_, hV⟩ := (keepRun_holds hh hstep K).1 id hid
  rw [default_root d (h2 id hid)] at hC hV
  exact ⟨h2 id hid, hC, hV⟩

/-- **C197**: the folders listed are those of the objects, each at the top of the storage root. -/
theorem C197_listed (d : DefaultConfig S) (hc : Codec S.w) (hx : HexHash S.w) (hL : LowerHash S.w) (ht : ∀ t, S.w.time (S.w.time t) = S.w.time t)
    (hh : S.w.hash S.args.alg = some h) (hr : UserRun S UrnId (AutoSession S.w (Deposit S.w h S.args)) s H) (hclean : NoLeftovers s.fs H)
    (T : TreeOf t s.fs) (G : GoodNames t) (hs : Sorted t) (p : List Str) :
    p ∈ getObjectFolders t ↔ ∃ id, H id ≠ [] ∧ p = [urnFolder id] := by
  have hobj := run_objects d hc hx hL ht hh hr
  rw [mem_folders_iff]
  constructor
  · rintro ⟨n, sub, hn, _, hext, hp⟩
    obtain ⟨q, x, _, hq, m, hm, _⟩ := mem_recurseObjects hp
    have hr2 : Reach t (n :: q) x := .step hn hq
    obtain ⟨b, hb⟩ := tree_file T hr2 hm
    have hns := ((T.names _ _ hr2).1 n (by simp)).1
    rw [show n :: q ++ [m] = n :: (q ++ [m]) from rfl, folderPath_cons _ (by simp)] at hb
    rcases (tidy_run d hr).places _ (by rw [hb]; simp) (by simp) with ⟨r, h1⟩ | ⟨id, r, hid, h1⟩
    · exact absurd (first_part hns (by decide) h1) hext
    · have e := first_part hns (urnFolder_no_slash hid) h1
      have hne : H id ≠ [] := fun h0 => by
        have := hclean id hid h0 r
        rw [← h1, hb] at this; cases this
      obtain ⟨_, _, r', O, _⟩ := hobj id hne
      subst e
      rw [object_recurse T G hs hns O hn, List.mem_singleton] at hp
      exact ⟨id, hne, hp⟩
  · rintro ⟨id, hne, rfl⟩
    obtain ⟨hid, C, r, O, _⟩ := hobj id hne
    have hsl := urnFolder_no_slash hid
    obtain ⟨b, hb⟩ := Option.ne_none_iff_exists'.1 (by have := C.declaration; rwa [mget_subFS] at this)
    have hd := declName_noSlash C.number
    obtain ⟨x, hx, _⟩ := (T.files [urnFolder id] (declName S.args.version) (by
      intro c hc
      rcases List.mem_append.1 hc with hc | hc
      · rw [List.mem_singleton.1 hc]; exact hsl
      · rw [List.mem_singleton.1 hc]; exact hd)).2 ⟨_, hb⟩
    cases hx with
    | @step _ y _ _ _ h1 h2 =>
      refine ⟨urnFolder id, y, h1, (G [] t (.here t)).2 _ (List.mem_append.2 (.inl (List.mem_map.2 ⟨_, h1, rfl⟩))), ?_, ?_⟩
      · exact fun he => urn_clear hid (.inl he)
      · rw [object_recurse T G hs hsl O h1]; exact List.mem_singleton.2 rfl

/-- what the check asks for besides -/
structure RootUsual (S : Setup) (fs : FS) (folder : Str) (N : Nat) : Prop where
  alg : S.args.alg = "sha512".toList
  version : VersionLe S.args.version S.new.init.version
  name : GoodName S.args.contentDir
  /-- on local disks every version has a file in its content directory -/
  content : S.plain = false → ∀ n : Nat, 0 < n → n ≤ N →
    ∃ q b, mget fs (under folder (verName 0 (n : Int) ++ '/' :: (if S.args.contentDir = [] then "content".toList else S.args.contentDir) ++ '/' :: q)) = some b

theorem archived_cdir {w : World} {a : CreateArgs} {id : Str} {fs : FS} {r : RawInv} {H0 : History} (A : Archived w h a id fs (loadedInv 0 r) H0) :
    r.inv.contentDir = if a.contentDir = [] then "content".toList else a.contentDir := by
  have h1 : r.inv.contentDirectory = a.contentDir := A.cdir
  unfold Inv.contentDir
  rw [h1]

/-- the declared version of an object is the one it was created with -/
theorem complete_version {w : World} {a : CreateArgs} {fs : FS} {f : Str} {N : Nat} {r : RawInv} (C : Complete a (subFS fs f) N)
    (O : ValidObject w (subFS fs f) 0 N r) {u : Str} (hu : ObjVersion fs f u) : u = a.version := by
  obtain ⟨num, hnum, hdec, hon⟩ := O.decl
  have key : ∀ v, IsVersionNum v → mget (subFS fs f) (declName v) ≠ none → v = num := by
    intro v hv hm
    obtain ⟨b, hb⟩ := Option.ne_none_iff_exists'.1 hm
    rcases hon _ b hb (declName_noSlash hv) with h1 | h1 | h1
    · unfold declName at h1
      exact List.append_cancel_left (List.append_cancel_left h1)
    · exact absurd (congrArg List.head? h1) (by show some '0' ≠ _; decide)
    · rw [show rootSidecarPath r.inv.digestAlg = "inventory.json.".toList ++ r.inv.digestAlg from rfl] at h1
      exact absurd (congrArg List.head? h1) (by show some '0' ≠ some 'i'; decide)
  obtain ⟨h1, b, hb⟩ := hu
  have hb : mget fs (under f (declName u)) = some b := hb
  rw [← mget_subFS] at hb
  rw [key u h1 (by rw [hb]; simp), key _ C.number C.declaration]

theorem usual_iff {fs : FS} {f : Str} {id : Str} {r : RawInv} {H0 : History} (C : Complete S.args (subFS fs f) H0.length)
    (O : ValidObject S.w (subFS fs f) 0 H0.length r) (A : Archived S.w h S.args id (subFS fs f) (loadedInv 0 r) H0) :
    (Usual S.plain (subFS fs f) 0 H0.length r.inv ∧ ∀ u, ObjVersion fs f u → VersionLe u S.new.init.version) ↔ RootUsual S fs f H0.length := by
  have halg : r.inv.digestAlg = S.args.alg := A.alg
  have hcd := archived_cdir A
  constructor
  · rintro ⟨U, hv⟩
    refine ⟨halg.symm.trans U.alg, hv _ ⟨C.number, ?_⟩, ?_, ?_⟩
    · obtain ⟨b, hb⟩ := Option.ne_none_iff_exists'.1 C.declaration
      rw [mget_subFS] at hb
      exact ⟨b, hb⟩
    · unfold GoodName; rw [← hcd]; exact U.name
    · intro hp n h0 hn
      obtain ⟨q, b, hb⟩ := U.content hp n h0 hn
      rw [mget_subFS, hcd] at hb
      exact ⟨q, b, hb⟩
  · intro U
    refine ⟨⟨halg.trans U.alg, C.inventories, ?_, ?_⟩, ?_⟩
    · intro hp n h0 hn
      obtain ⟨q, b, hb⟩ := U.content hp n h0 hn
      refine ⟨q, b, ?_⟩
      rw [mget_subFS, hcd]; exact hb
    · rw [hcd]; exact U.name
    · intro u hu
      rw [complete_version C O hu]; exact U.version

/-- **C197, the part that holds**: a storage root made by the program with the configuration that comes with it, and filled by it under ids as URNs, validates
without error, if the objects have SHA-512 and are not newer than the storage root, the content directory is no beginning of
`inventory.json.sha512`, on local disks every version brought content, and no command that failed left anything behind. -/
theorem C197_validates_partial (d : DefaultConfig S) (hc : Codec S.w) (hx : HexHash S.w) (hL : LowerHash S.w) (ht : ∀ t, S.w.time (S.w.time t) = S.w.time t)
    (hh : S.w.hash S.args.alg = some h) (hr : UserRun S UrnId (AutoSession S.w (Deposit S.w h S.args)) s H) (hclean : NoLeftovers s.fs H)
    (T : TreeOf t s.fs) (G : GoodNames t) (hs : Sorted t) (hU : ∀ id, H id ≠ [] → RootUsual S s.fs (urnFolder id) (H id).length) :
    ∃ F, validateRoot S.w S.env S.plain S.blank s.fs t = .ok F ∧ NoErrors F := by
  have D := tidy_run d hr
  refine (validateRoot_iff D.declared D.nodup).2 ?_
  intro p hp
  obtain ⟨id, hne, rfl⟩ := (C197_listed d hc hx hL ht hh hr hclean T G hs p).1 hp
  obtain ⟨_, C, r, O, A⟩ := run_objects d hc hx hL ht hh hr id hne
  obtain ⟨U, hv⟩ := (usual_iff C O A).2 (hU id hne)
  exact ⟨C79_valid_accepted_partial S.env hL O U, hv⟩

/-- **C197**, on local disks: in no other case. -/
theorem C197_validates_iff (d : DefaultConfig S) (hc : Codec S.w) (hx : HexHash S.w) (hL : LowerHash S.w) (ht : ∀ t, S.w.time (S.w.time t) = S.w.time t)
    (hh : S.w.hash S.args.alg = some h) (hr : UserRun S UrnId (AutoSession S.w (Deposit S.w h S.args)) s H) (hclean : NoLeftovers s.fs H)
    (T : TreeOf t s.fs) (G : GoodNames t) (hs : Sorted t) (hplain : S.plain = false) :
    (∃ F, validateRoot S.w S.env S.plain S.blank s.fs t = .ok F ∧ NoErrors F) ↔ ∀ id, H id ≠ [] → RootUsual S s.fs (urnFolder id) (H id).length := by
  refine ⟨fun hv id hne => ?_, C197_validates_partial d hc hx hL ht hh hr hclean T G hs⟩
  have D := tidy_run d hr
  obtain ⟨hacc, hle⟩ := (validateRoot_iff D.declared D.nodup).1 hv _ ((C197_listed d hc hx hL ht hh hr hclean T G hs _).2 ⟨id, hne, rfl⟩)
  obtain ⟨_, C, r, O, A⟩ := run_objects d hc hx hL ht hh hr id hne
  refine (usual_iff C O A).1 ⟨?_, hle⟩
  have hacc : Accepted S.w S.env S.plain S.blank s.fs (urnFolder id) := hacc
  rw [hplain] at hacc ⊢
  exact (C79_accepted_iff S.env hL O).1 hacc


/-! ## Leftovers -/

/-- An object that was begun and has no inventory stops the validation of the storage root, or is reported. -/
theorem C197_begun {D : Str → Session → History → History → Prop} (d : DefaultConfig S) (hr : UserRun S UrnId D s H) (T : TreeOf t s.fs)
    (G : GoodNames t) {id v : Str} (hid : UrnId id) (hv : ObjVersion s.fs (urnFolder id) v)
    (hi : mget s.fs (under (urnFolder id) rootInvPath) = none) :
    ¬ ∃ F, validateRoot S.w S.env S.plain S.blank s.fs t = .ok F ∧ NoErrors F := by
  intro hval
  have R := tidy_run d hr
  have hsl := urnFolder_no_slash hid
  obtain ⟨hnum, b, hb⟩ := hv
  obtain ⟨x, hx, hf⟩ := (T.files [urnFolder id] (declName v) (by
    intro c hc
    rcases List.mem_append.1 hc with hc | hc
    · rw [List.mem_singleton.1 hc]; exact hsl
    · rw [List.mem_singleton.1 hc]; exact declName_noSlash hnum)).2 ⟨_, hb⟩
  have hdot := (G _ _ hx).2 _ (List.mem_append.2 (.inr hf))
  have hlist : [urnFolder id] ∈ getObjectFolders t := by
    cases hx with
    | @step _ y _ _ _ h1 h2 =>
      rw [reach_nil h2] at hf
      exact mem_folders_iff.2 ⟨urnFolder id, y, h1, (G [] t (.here t)).2 _ (List.mem_append.2 (.inl (List.mem_map.2 ⟨_, h1, rfl⟩))),
        fun he => urn_clear hid (.inl he), recurse_of_file hf hdot⟩
  obtain ⟨⟨F, hF, hn⟩, _⟩ := (validateRoot_iff R.declared R.nodup).1 hval _ hlist
  have hF : checkFolder S.w S.env S.plain S.blank s.fs (urnFolder id) = .ok F := hF
  unfold checkFolder at hF
  split at hF
  · cases hF
  · cases hF; exact absurd (List.mem_singleton.2 rfl) (not_err_mem hn)
  · rw [if_pos (by rw [mget_subFS]; exact hi)] at hF
    cases hF

/-- **C197, where it does not hold**: after any run of commands, whatever they were, an `add` of a new object that is interrupted right after it wrote the
declaration leaves a storage root that does not validate. -/
theorem C197_interrupted {D : Str → Session → History → History → Prop} (d : DefaultConfig S) (hr : UserRun S UrnId D s H) {id : Str} (hid : UrnId id)
    (hfresh : H id = []) (hempty : ∀ r, mget s.fs (under (urnFolder id) r) = none) (hv : IsVersionNum S.args.version) (se : Session) :
    ∃ s', UserRun S UrnId D s' H ∧
      s'.fs = applyOps s.fs (writeFile (under (urnFolder id) (declName S.args.version)) (asBytes (objDecl ++ S.args.version ++ "\n".toList))) ∧
      ∀ t, TreeOf t s'.fs → GoodNames t → ¬ ∃ F, validateRoot S.w S.env S.plain S.blank s'.fs t = .ok F ∧ NoErrors F := by
  obtain ⟨m, hopen, hex⟩ := C181_free d hr hid hempty true
  have hm := ((procRun_keep (default_good d) (default_lasting d) (userRun_proc d hr).1).1 true).symm.trans hopen
  have hm' : m = restarted S.hashes S.new.mgr := by cases hm; rfl
  have hroot : rootPath (S.layouts m) id = (urnFolder id, false) := by
    rw [hm', show S.layouts (restarted S.hashes S.new.mgr) = S.layouts S.new.mgr from
      usedLayouts_restarted (default_good d).exts (default_lasting d).reloads (default_lasting d).survive]
    exact default_root d hid
  have hsub : subFS s.fs (urnFolder id) = [] := by
    unfold objectExists at hex
    rw [hroot] at hex
    simpa using hex
  let ops := writeFile (under (urnFolder id) (declName S.args.version)) (asBytes (objDecl ++ S.args.version ++ "\n".toList))
  have hops : (createObject (S.layouts m) S.args s.fs id).1 = ops := by
    unfold createObject
    rw [hroot]
    simp only [hsub]
    rfl
  have hcrash : CrashPrefix ops (addObjectByPath S.w S.env S.plain S.blank (S.layouts m) S.args s.fs id se).1 := by
    unfold addObjectByPath
    rw [hex]
    simp only
    split
    · simp only [hops]; exact crashPrefix_refl _
    · simp only [hops]
      rename_i folder inv hcr
      have := CrashPrefix.take (ops ++ (inFolder folder (session S.w inv se)).1) ops.length
      rwa [List.take_left'] at this
      rfl
  have hrun := UserRun.broken true id se ops hr hopen hid hfresh hcrash
  refine ⟨_, hrun, rfl, fun t T G => C197_begun d hrun T G hid (v := S.args.version) ⟨hv, ?_⟩ ?_⟩
  · have : mget (applyOps s.fs ops) (under (urnFolder id) (declName S.args.version)) ≠ none := by
      show mget (applyOps s.fs (.create _ :: _)) _ ≠ none
      rw [applyOps_cons]
      refine applyOps_keeps ?_
      show mget (mset s.fs _ _) _ ≠ none
      rw [mget_mset_self]; simp
    obtain ⟨b, hb⟩ := Option.ne_none_iff_exists'.1 this
    exact ⟨b, hb⟩
  · show mget (applyOps s.fs ops) _ = none
    rw [mget_applyOps_ne]
    · exact hempty _
    · intro op hop he
      have h1 : op.path = under (urnFolder id) (declName S.args.version) := by
        simp only [ops, writeFile, List.mem_cons, List.not_mem_nil, or_false] at hop
        rcases hop with rfl | rfl <;> rfl
      rw [h1] at he
      have h2 := List.append_cancel_left he
      simp only [List.cons.injEq, true_and] at h2
      exact absurd (congrArg List.head? h2) (by show some '0' ≠ some 'i'; decide)

end

/-- **C197 in full**: whatever commands were run, finished or not, the storage root validates. -/
def C197_full : Prop := ∀ (S : Setup) (h : Bytes → Str) (s : RootDisk) (H : Str → History) (t : FDir), DefaultConfig S → Codec S.w → HexHash S.w → LowerHash S.w →
  (∀ t, S.w.time (S.w.time t) = S.w.time t) → S.w.hash S.args.alg = some h → UserRun S UrnId (AutoSession S.w (Deposit S.w h S.args)) s H →
  TreeOf t s.fs → GoodNames t → Sorted t → (∀ id, H id ≠ [] → RootUsual S s.fs (urnFolder id) (H id).length) →
  ∃ F, validateRoot S.w S.env S.plain S.blank s.fs t = .ok F ∧ NoErrors F

/-! ## Case -/

theorem urn_b : UrnId "b".toList := ⟨⟨'b', [], rfl, by decide⟩, by decide, by decide, by decide⟩

def sortedHere (d : FDir) : Bool := decide (d.names.Pairwise (fun a b => strLt a b = true))

theorem sorted_of_check {d : FDir} (h1 : sortedHere d = true) (h2 : d.all sortedHere = true) : Sorted d := by
  intro p x hr
  have : sortedHere x = true := by
    cases hr with
    | here => exact h1
    | step hm t => exact FDir.all_reach h2 (by simp) (.step hm t)
  exact of_decide_eq_true this

/-- on a local disk -/
noncomputable def avSetup : Setup := { prSetup prDef with plain := false }

theorem avSetup_default : DefaultConfig avSetup := ⟨prDef_default.hash, prDef_default.manager, prDef_default.text, prDef_default.docs⟩

theorem av_layouts : avSetup.layouts avSetup.new.mgr = [layoutPath prHashes prDefClean] := prDef_layouts

/-- the storage root after `create` of `a` -/
noncomputable def avDisk : RootDisk :=
  (createRun exKeep exEnv false (blankInv [] []) [layoutPath prHashes prDefClean] (prNew prDef) exArgs rtFolders cliRt ⟨[], []⟩).1

def avH : Str → History := fun i => if i = "a".toList then histOf [replList rtFiles []] else []

theorem av_run : UserRun avSetup UrnId (AutoSession exKeep (Deposit exKeep rtHash exArgs)) avDisk avH := by
  have := UserRun.create (S := avSetup) (I := UrnId) (D := AutoSession exKeep (Deposit exKeep rtHash exArgs)) rt_open urn_a exArgs_good (pr_session _ (Or.inl rfl))
    (by rw [av_layouts]
        show (createRun exKeep exEnv false (blankInv [] []) [layoutPath prHashes prDefClean] (prNew prDef) exArgs rtFolders cliRt ⟨[], []⟩).2.success = true
        decide +kernel)
  rw [av_layouts] at this
  exact this

def avExt : FDir :=
  let c : FDir := .file "config.json".toList .nil
  .dir "0006-flat-omit-prefix-storage-layout".toList c (.dir "NNNN-direct-clean-path-layout".toList c
    (.dir "NNNN-direct-path-layout".toList c (.dir "NNNN-gocfl-extension-manager".toList c (.dir "initial".toList c .nil))))

def avObj : FDir :=
  .file "0=ocfl_object_1.1".toList (.file "inventory.json".toList (.file "inventory.json.sha512".toList (.dir "v1".toList
    (.dir "content".toList (.dir "c".toList (.file "d".toList .nil) (.file "e".toList .nil))
      (.file "inventory.json".toList (.file "inventory.json.sha512".toList .nil))) .nil)))

def avTree : FDir := .file "0=ocfl_1.1".toList (.dir "a".toList avObj (.dir "extensions".toList avExt (.file "ocfl_spec.md".toList .nil)))

theorem av_keys : mkeys avDisk.fs = ["0=ocfl_1.1", "ocfl_spec.md", "extensions/0006-flat-omit-prefix-storage-layout/config.json",
  "extensions/NNNN-direct-clean-path-layout/config.json", "extensions/NNNN-direct-path-layout/config.json",
  "extensions/initial/config.json", "extensions/NNNN-gocfl-extension-manager/config.json", "a/0=ocfl_object_1.1", "a/v1/content/c/d",
  "a/v1/content/e", "a/v1/inventory.json", "a/v1/inventory.json.sha512", "a/inventory.json", "a/inventory.json.sha512"].map String.toList := by
  decide +kernel

theorem av_tree : TreeOf avTree avDisk.fs := treeOf_of_check (by decide) (by decide) (by rw [av_keys]; decide +kernel) (by rw [av_keys]; decide +kernel)

theorem av_clean : NoLeftovers avDisk.fs avH := by
  intro id hid h0 r
  by_contra hne
  have hk := mem_mkeys_mget.2 hne
  rw [av_keys] at hk
  have hf : urnFolder id = "a".toList ∨ urnFolder id = "extensions".toList := by
    have hsl := urnFolder_no_slash hid
    simp only [List.map_cons, List.map_nil, List.mem_cons, List.not_mem_nil, or_false] at hk
    have key : ∀ (n x : Str), '/' ∉ n → under (urnFolder id) r = n ++ '/' :: x → urnFolder id = n := fun n x hn he => first_part hsl hn he
    have top : ∀ n : Str, '/' ∉ n → under (urnFolder id) r ≠ n := fun n hn he => hn (by rw [← he]; unfold under; simp)
    rcases hk with h | h | h | h | h | h | h | h | h | h | h | h | h | h
    · exact absurd h (top _ (by decide))
    · exact absurd h (top _ (by decide))
    · exact .inr (key _ _ (by decide) h)
    · exact .inr (key _ _ (by decide) h)
    · exact .inr (key _ _ (by decide) h)
    · exact .inr (key _ _ (by decide) h)
    · exact .inr (key _ _ (by decide) h)
    · exact .inl (key _ _ (by decide) h)
    · exact .inl (key _ _ (by decide) h)
    · exact .inl (key _ _ (by decide) h)
    · exact .inl (key _ _ (by decide) h)
    · exact .inl (key _ _ (by decide) h)
    · exact .inl (key _ _ (by decide) h)
    · exact .inl (key _ _ (by decide) h)
  rcases hf with hf | hf
  · have : id = "a".toList := urnFolder_inj (urn_no_underscore hid) (by decide) (hf.trans (by decide))
    rw [this] at h0
    exact absurd h0 (by unfold avH; rw [if_pos rfl]; exact List.cons_ne_nil _ _)
  · exact urn_clear hid (.inl hf)

/-- the hypotheses of C197 are met: the storage root validates -/
example : ∃ F, validateRoot exKeep exEnv false (blankInv [] []) avDisk.fs avTree = .ok F ∧ NoErrors F := by
  refine C197_validates_partial (S := avSetup) (h := rtHash) (H := avH) avSetup_default (codecWorld_codec _) (codecWorld_hex _) exKeep_lower (fun _ => rfl)
    rtHash_eq av_run av_clean av_tree (goodNames_of_check (by decide) (by decide)) (sorted_of_check (by decide) (by decide)) ?_
  intro id hid
  have he : id = "a".toList := by
    by_contra hc
    exact hid (by unfold avH; rw [if_neg hc])
  subst he
  refine ⟨rfl, ?_, ?_, ?_⟩
  · exact decLt_le (by decide)
  · unfold GoodName; decide
  · intro _ n h0 hn
    have : n = 1 := by
      have : n ≤ 1 := hn
      omega
    subst this
    refine ⟨"e".toList, ?_⟩
    obtain ⟨b, hb⟩ := Option.ne_none_iff_exists'.1 (mem_mkeys_mget.1 (show "a/v1/content/e".toList ∈ mkeys avDisk.fs by rw [av_keys]; decide))
    exact ⟨b, hb⟩


/-- the storage root after `init` -/
def avNew : RootDisk := (initRoot (prNew prDef).T true (prNew prDef).init (prMgr prDef) [] ⟨[], []⟩).1

theorem av_init : UserRun avSetup UrnId (AutoSession exKeep (Deposit exKeep rtHash exArgs)) avNew (fun _ => []) :=
  UserRun.init (S := avSetup) (by
    have : (initRoot (prNew prDef).T true (prNew prDef).init (prMgr prDef) [] ⟨[], []⟩).2 = none := by decide +kernel
    show initRoot (prNew prDef).T true (prNew prDef).init (prMgr prDef) [] ⟨[], []⟩ = (avNew, none)
    rw [← this]; rfl)

def begunTree : FDir := .file "0=ocfl_1.1".toList (.dir "b".toList (.file "0=ocfl_object_1.1".toList .nil)
  (.dir "extensions".toList avExt (.file "ocfl_spec.md".toList .nil)))

theorem C197_full_fails : ¬ C197_full := by
  intro hf
  have hempty : ∀ r, mget avNew.fs (under (urnFolder "b".toList) r) = none := by
    intro r
    rw [← mget_subFS]
    have : subFS avNew.fs (urnFolder "b".toList) = [] := init_empty avSetup_default urn_b
    rw [this]; rfl
  obtain ⟨s', h1, h2, h3⟩ := C197_interrupted avSetup_default av_init urn_b rfl hempty (show IsVersionNum exArgs.version from exArgs_good.version) (rtSession rtFiles)
  have h2 : s'.fs = applyOps avNew.fs (writeFile "b/0=ocfl_object_1.1".toList (asBytes "ocfl_object_1.1\n".toList)) := h2
  have hk : mkeys s'.fs = ["0=ocfl_1.1", "ocfl_spec.md", "extensions/0006-flat-omit-prefix-storage-layout/config.json",
      "extensions/NNNN-direct-clean-path-layout/config.json", "extensions/NNNN-direct-path-layout/config.json",
      "extensions/initial/config.json", "extensions/NNNN-gocfl-extension-manager/config.json", "b/0=ocfl_object_1.1"].map String.toList := by
    rw [h2]; decide +kernel
  have T : TreeOf begunTree s'.fs := treeOf_of_check (by decide) (by decide) (by rw [hk]; decide +kernel) (by rw [hk]; decide +kernel)
  have G : GoodNames begunTree := goodNames_of_check (by decide) (by decide)
  exact h3 _ T G (hf avSetup rtHash s' (fun _ => []) begunTree avSetup_default (codecWorld_codec _) (codecWorld_hex _) exKeep_lower (fun _ => rfl)
    rtHash_eq h1 T G (sorted_of_check (by decide) (by decide)) (fun id hid => absurd rfl hid))

end Gocfl
