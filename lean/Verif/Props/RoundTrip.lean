import Verif.Model.CmdLine
import Verif.Props.Cmd
import Verif.Props.ExtractHistory
import Verif.Props.Filesystem
import Verif.Props.CleanVersion

/-! # What is put in comes out again (C113) -/

namespace Gocfl

/-- no version has the path -/
def NeverHad (inv : Inv) (q : Str) : Prop := ∀ v, ¬ HasPath inv v q

theorem addName_new {inv inv' : Inv} {n : Nat} (hg : GapFree inv n) {mp d q : Str} (hd : d ≠ []) (hq : NeverHad inv q)
    (h : addName inv mp d q = .ok inv') :
    (∀ p e, HasFile inv' inv.head p e ↔ HasFile inv inv.head p e ∨ (p = q ∧ e = d)) ∧ inv'.modified = true := by
  obtain ⟨s, dup, upd, hs, hdup, hupd, hs', _, _, hm, hh⟩ := addName_ok h
  have hnone : ∀ r, lastDigest inv q = .ok r → r = none := by
    intro r hr
    rcases lastDigest_ok hg hr with ⟨h1, _⟩ | ⟨k, x, _, _, _, hx, _⟩
    · exact h1
    · have := (digestAt_none_iff hg.nodup (k := k)).2 (hq _)
      rw [hx] at this; cases this
  have hdf : dup = false := by
    obtain ⟨r, hr, rfl⟩ := (alreadyExists_ok hd).1 hdup
    rw [hnone r hr]; rfl
  have huf : upd = false := by
    obtain ⟨r, hr, rfl⟩ := (isUpdate_ok hd).1 hupd
    rw [hnone r hr]; simp
  subst hdf huf
  refine ⟨fun p e => ?_, by rw [hm]; simp⟩
  rw [hasFile_head hg.nodup hs, ← hh.head, hasFile_head (hh.nodup hg.nodup) hs', inSt_stAddName]
  simp

theorem addFile_new {inv inv' : Inv} {n : Nat} (hg : GapFree inv n) {mp dig q : Str} {cs : AMap Str Str}
    (hdig : mget cs inv.digestAlg = some dig) (hd : dig ≠ []) (hq : NeverHad inv q) (h : addFile inv [q] mp cs = .ok inv') :
    (∀ p e, HasFile inv' inv.head p e ↔ HasFile inv inv.head p e ∨ (p = q ∧ e = toLower dig)) ∧ inv'.modified = true := by
  obtain ⟨dig', h1, h⟩ := addFile_ok h
  rw [hdig] at h1; cases h1
  obtain ⟨f1, f2, _, _, f5⟩ := addFixity_fold inv mp cs
  rw [List.foldlM_cons] at h
  obtain ⟨j, hj, h⟩ := res_bind_eq_ok.1 h
  cases h
  have hf : ∀ v p e, HasFile (cs.foldl (fun i c => addFixity i mp c) inv) v p e ↔ HasFile inv v p e := by
    intro v p e; unfold HasFile; rw [f1]
  obtain ⟨h1, h2⟩ := addName_new (f5.gapFree hg) (by simpa [toLower] using hd)
    (fun v ⟨e, he⟩ => hq v ⟨e, (hf v q e).1 he⟩) hj
  refine ⟨fun p e => ?_, h2⟩
  rw [← f2, h1, hf, f2]

/-- what one addition under a new logical path does -/
theorem objAdd_new {w : World} {o : Obj} {n : Nat} {h : Bytes → Str} {p area : Str} {b : Bytes} {dup : Bool} (hw : WF o.inv n)
    (hx : HexHash w) (hL : LowerHash w) (hh : w.hash o.inv.digestAlg = some h) (hnew : ∀ q, w.statePath p area = .ok q → NeverHad o.inv q)
    (he : (objAdd w o p area b dup).err = none) : ∃ q, w.statePath p area = .ok q ∧
      (∀ r e, HasFile (objAdd w o p area b dup).obj.inv o.inv.head r e ↔ HasFile o.inv o.inv.head r e ∨ (r = q ∧ e = h b)) ∧
      (objAdd w o p area b dup).obj.inv.modified = true := by
  have hne : h b ≠ [] := (hx _ _ b hh).1
  have hlow : toLower (h b) = h b := hL _ _ b hh
  unfold objAdd at he ⊢
  split at he
  · cases he
  · rename_i hwr
    rw [if_neg hwr]
    cases hb : buildNames w o.inv [p] area with
    | error e => rw [hb] at he; cases he
    | ok x =>
      obtain ⟨names, mp⟩ := x
      rw [hb] at he
      simp only at he ⊢
      obtain ⟨h1, i, _, _⟩ := buildNames_ok hb
      obtain ⟨q, hq, hn⟩ : ∃ q, w.statePath p area = .ok q ∧ names = [q] := by
        rw [List.mapM_cons] at h1
        obtain ⟨q, hq, h1⟩ := res_bind_eq_ok.1 h1
        refine ⟨q, hq, ?_⟩
        cases h1; rfl
      subst hn
      refine ⟨q, hq, ?_⟩
      have hN := hnew q hq
      -- storing the file
      have hread : ∀ o1 : Obj, o1.inv = o.inv → (addReader w o1 [q] mp b).err = none →
          (∀ r e, HasFile (addReader w o1 [q] mp b).obj.inv o.inv.head r e ↔
            HasFile o.inv o.inv.head r e ∨ (r = q ∧ e = h b)) ∧ (addReader w o1 [q] mp b).obj.inv.modified = true := by
        intro o1 ho1 he
        unfold addReader at he ⊢
        simp only at he ⊢
        cases hc : checksums w (digestAlgs o1.inv) b with
        | none => rw [hc] at he; cases he
        | some cs =>
          rw [hc] at he
          simp only at he ⊢
          obtain ⟨j, hj, ho⟩ := withInv_err he
          rw [ho]
          simp only
          rw [ho1] at hj
          obtain ⟨dig, hd, _⟩ := addFile_ok hj
          obtain ⟨f, hf, hdig⟩ := checksums_get hc hd
          rw [hh] at hf; cases hf
          subst hdig
          have := addFile_new hw.1 hd hne hN hj
          rw [hlow] at this
          exact this
      cases dup with
      | false =>
        rw [if_neg (by decide)] at he ⊢
        exact hread _ rfl he
      | true =>
        rw [if_pos rfl] at he ⊢
        rw [hh] at he ⊢
        simp only [List.headD_cons] at he ⊢
        unfold addChecked at he ⊢
        cases ha : alreadyExists o.inv q (h b) with
        | error e => simp only [ha] at he; cases he
        | ok t =>
          have ht : t = false := by
            obtain ⟨r, hr, rfl⟩ := (alreadyExists_ok hne).1 ha
            rcases lastDigest_ok hw.1 hr with ⟨rfl, _⟩ | ⟨k, x, _, _, _, hx, _⟩
            · rfl
            · have := (digestAt_none_iff hw.1.nodup (k := k)).2 (hN _)
              rw [hx] at this; cases this
          subst ht
          simp only [ha] at he ⊢
          split at he
          · rename_i hdp
            rw [if_pos hdp]
            obtain ⟨j, hj, ho⟩ := withInv_err he
            rw [ho]
            simp only
            have hh' := copyFile_headOnly hj
            have hnf : ¬ HasFile o.inv o.inv.head q (h b) := fun hc => hN _ ⟨_, hc⟩
            obtain ⟨_, s, hs, ⟨hin, _⟩ | ⟨_, rfl⟩⟩ := copyFile_ok hj
            · exact absurd ((hasFile_head hw.1.nodup hs).2 (mgetD_mem hin)) hnf
            · refine ⟨fun r e => ?_, rfl⟩
              have hs' := headState_set_modified hs (stAppend s (h b) q) true
              rw [← hh'.head, hasFile_head (hh'.nodup hw.1.nodup) hs', inSt_stAppend, hh'.head, hasFile_head hw.1.nodup hs]
          · rename_i hdp
            rw [if_neg hdp]
            exact hread _ rfl he

/-- the logical path of a file is `q` -/
def StatePathOf (w : World) (f : InFile) (q : Str) : Prop := w.statePath f.path f.area = .ok q

/-- no two of the files get the same logical path -/
def DistinctPaths (w : World) (files : List InFile) : Prop :=
  files.Pairwise (fun f g => ∀ q, StatePathOf w f q → ¬ StatePathOf w g q)

theorem DistinctPaths.same {w : World} {files : List InFile} (h : DistinctPaths w files) {f g : InFile}
    (hf : f ∈ files) (hg : g ∈ files) {q : Str} (h1 : StatePathOf w f q) (h2 : StatePathOf w g q) : f = g := by
  induction files with
  | nil => cases hf
  | cons k files ih =>
    obtain ⟨a, b⟩ := List.pairwise_cons.1 h
    rcases List.mem_cons.1 hf with hf' | hf' <;> rcases List.mem_cons.1 hg with hg' | hg'
    · rw [hf', hg']
    · subst hf'; exact absurd h2 (a g hg' q h1)
    · subst hg'; exact absurd h1 (a f hf' q h2)
    · exact ih b hf' hg'

/-- what a list of additions under new logical paths does -/
theorem addAll_new {w : World} {n : Nat} {h : Bytes → Str} {dup : Bool} (hx : HexHash w) (hL : LowerHash w)
    {files : List InFile} {o : Obj} (hw : WF o.inv n) (hh : w.hash o.inv.digestAlg = some h)
    (hd : DistinctPaths w files) (hnew : ∀ f ∈ files, ∀ q, StatePathOf w f q → NeverHad o.inv q)
    (he : (runCalls w o (addAll dup files)).err = none) :
    (∀ f ∈ files, ∃ q, StatePathOf w f q) ∧
    (∀ r e, HasFile (runCalls w o (addAll dup files)).obj.inv o.inv.head r e ↔
      HasFile o.inv o.inv.head r e ∨ ∃ f ∈ files, StatePathOf w f r ∧ e = h f.data) ∧
    (files ≠ [] → (runCalls w o (addAll dup files)).obj.inv.modified = true) := by
  induction files generalizing o with
  | nil => simp [addAll, runCalls, ok]
  | cons f files ih =>
    have heq : runCalls w o (addAll dup (f :: files)) =
        (objAdd w o f.path f.area f.data dup).andThen (fun o => runCalls w o (addAll dup files)) := rfl
    rw [heq] at he ⊢
    obtain ⟨h1, h2⟩ := andThen_split he
    rw [andThen_none h1]
    obtain ⟨q, hq, hst, hm⟩ := objAdd_new hw hx hL hh (fun q hq => hnew f (List.mem_cons_self ..) q hq) h1
    have hrel := (runCall_step (w := w) (U := fun _ _ => True) (o := o) (.add f.path f.area f.data dup) (fun _ _ => trivial)).headOnly
    have hrel : HeadOnly o.inv (objAdd w o f.path f.area f.data dup).obj.inv := hrel
    have hw' : WF (objAdd w o f.path f.area f.data dup).obj.inv n := by
      have := (calls_wf (w := w) hw [.add f.path f.area f.data dup]).1
      have hr1 : runCalls w o [.add f.path f.area f.data dup] = (objAdd w o f.path f.area f.data dup).andThen (fun o => ok o) := rfl
      rw [hr1, andThen_none h1] at this
      exact this
    obtain ⟨hd1, hd2⟩ := List.pairwise_cons.1 hd
    have hnew' : ∀ g ∈ files, ∀ r, StatePathOf w g r → NeverHad (objAdd w o f.path f.area f.data dup).obj.inv r := by
      intro g hg r hr v ⟨e, hve⟩
      by_cases hv : v = o.inv.head
      · subst hv
        rcases (hst r e).1 hve with h3 | ⟨h3, _⟩
        · exact hnew g (List.mem_cons_of_mem _ hg) r hr _ ⟨e, h3⟩
        · subst h3
          exact hd1 g hg r hq hr
      · exact hnew g (List.mem_cons_of_mem _ hg) r hr v ⟨e, (hrel.hasFile_other hw.1.nodup hv).1 hve⟩
    obtain ⟨i1, i2, _⟩ := ih hw' (by rw [hrel.alg]; exact hh) hd2 hnew' h2
    refine ⟨?_, ?_, fun _ => (calls_wf (w := w) hw' _).2.2 hm⟩
    · intro g hg
      rcases List.mem_cons.1 hg with rfl | hg
      · exact ⟨q, hq⟩
      · exact i1 g hg
    · intro r e
      rw [← hrel.head, i2, hrel.head, hst]
      constructor
      · rintro ((h3 | ⟨rfl, rfl⟩) | ⟨g, hg, h3⟩)
        · exact Or.inl h3
        · exact Or.inr ⟨f, List.mem_cons_self .., hq, rfl⟩
        · exact Or.inr ⟨g, List.mem_cons_of_mem _ hg, h3⟩
      · rintro (h3 | ⟨g, hg, h3, h4⟩)
        · exact Or.inl (Or.inl h3)
        · rcases List.mem_cons.1 hg with rfl | hg
          · refine Or.inl (Or.inr ⟨?_, h4⟩)
            have : Except.ok r = Except.ok (ε := GoErr) q := h3.symm.trans hq
            cases this; rfl
          · exact Or.inr ⟨g, hg, h3, h4⟩

/-- the session of a command that adds a folder, without extensions that act before, after or in versions of their own -/
structure AddsOnly (s : Session) (dup : Bool) (files : List InFile) : Prop where
  body : s.body = addAll dup files
  before : s.before = []
  after : s.after = []
  rounds : s.rounds = []
  echo : s.echo = false

/-- where a plain session ends -/
theorem plain_session {w : World} {inv i : Inv} {s : Session} {dup : Bool} {files : List InFile}
    (ha : AddsOnly s dup files)
    (hv : newVersion inv s.info.msg s.info.userName s.info.userAddress s.info.now = .ok i) (he : (session w inv s).err = none) :
    (runCalls w ⟨i, [], false, []⟩ (addAll dup files)).err = none ∧
    ((runCalls w ⟨i, [], false, []⟩ (addAll dup files)).obj.inv.modified = true →
      (session w inv s).obj.inv = (runCalls w ⟨i, [], false, []⟩ (addAll dup files)).obj.inv) := by
  rw [session_eq_rest hv] at he ⊢
  unfold sessionRest at he ⊢
  rw [ha.body, ha.before, ha.after, ha.rounds, ha.echo] at *
  have h0 : runCalls w ⟨i, [], false, []⟩ [] = ok ⟨i, [], false, []⟩ := rfl
  rw [h0, andThen_ok] at he ⊢
  obtain ⟨h1, h2⟩ := andThen_split he
  obtain ⟨h3, h4⟩ := andThen_split h1
  refine ⟨h3, fun hm => ?_⟩
  rw [andThen_none h1, andThen_none h3]
  have hstep := runCalls_step (w := w) (U := fun _ _ => True) (o := ⟨i, [], false, []⟩) (addAll dup files)
    (fun _ _ _ _ => trivial)
  have hecho := hstep.echo
  have hwr := hstep.headOnly.wr.trans (newVersion_frame hv).2.2.2.1
  generalize (runCalls w ⟨i, [], false, []⟩ (addAll dup files)).obj = o at *
  have hend : (endUpdate w o [] []).obj.inv = o.inv := by
    unfold endUpdate
    rw [if_neg (by rw [hwr]; simp), if_neg (by rw [hm]; simp), hecho]
    show (((ok o).andThen fun o => (runCalls w o []).andThen fun o => _).obj).inv = _
    rw [andThen_ok, show runCalls w o [] = ok o from rfl, andThen_ok, clean_modified hm,
      show withInv o (Except.ok o.inv) = ok o from rfl, andThen_ok]
    exact storeInventory_trace.1
  rcases closeObj_cases w (endUpdate w o [] []).obj s.exts with ⟨h, _⟩ | ⟨_, _, _, h, _⟩ | ⟨_, _, _, _, h⟩ <;> (rw [h]; exact hend)

/-- the files of the head version of the result -/
theorem adds_state {w : World} (hx : HexHash w) (hL : LowerHash w) {N : Nat} {inv : Inv} {s : Session} {dup : Bool}
    {files : List InFile} {h : Bytes → Str} (hw : WF inv N) (ha : AddsOnly s dup files) (hf : files ≠ [])
    (hh : w.hash inv.digestAlg = some h) (he : (session w inv s).err = none) (hd : DistinctPaths w files)
    (hnew : ∀ f ∈ files, ∀ q, StatePathOf w f q → NeverHad inv q) :
    (∀ f ∈ files, ∃ q, StatePathOf w f q) ∧ (session w inv s).obj.inv.modified = true ∧
    ∀ q d, HasFile (session w inv s).obj.inv (session w inv s).obj.inv.head q d ↔
      HasFile inv inv.head q d ∨ ∃ f ∈ files, StatePathOf w f q ∧ d = h f.data := by
  obtain ⟨st, hs0, hs1, hv⟩ := newVersion_gapFree hw.1 hw.2 s.info.msg s.info.userName s.info.userAddress s.info.now
  obtain ⟨hg, hk⟩ := newVersion_ok_gapFree hw.1 hw.2 hv
  generalize hi : ({ inv with
        head := verName inv.paddingLength ((N + 1 : Nat) : Int)
        versions := inv.versions ++ [(verName inv.paddingLength ((N + 1 : Nat) : Int),
          { created := s.info.now, message := s.info.msg, userName := s.info.userName, userAddress := s.info.userAddress, state := st })]
        writeable := true } : Inv) = i at *
  have hvers : i.versions = inv.versions ++ [(i.head, ⟨s.info.now, s.info.msg, s.info.userName, s.info.userAddress, st⟩)] := by
    rw [← hi]
  have hhead : i.head = verName inv.paddingLength ((N + 1 : Nat) : Int) := by rw [← hi]
  have hst : ∀ q d, InSt st q d ↔ HasFile inv inv.head q d := by
    intro q d
    by_cases hN : N = 0
    · rw [hs0 hN]
      subst hN
      constructor
      · intro hc; exact absurd hc (inSt_nil q d)
      · rintro ⟨ver, ps, hver, _⟩
        have := hw.1.mem_keys.1 (mem_mkeys_of_mem hver)
        obtain ⟨k, h1, h2, _⟩ := this
        omega
    · obtain ⟨ver, hver⟩ := hw.1.head_version (Nat.pos_of_ne_zero hN)
      rw [hs1 ver hver, hasFile_head hw.1.nodup (headState_eq_ok.2 ⟨ver, hver, rfl⟩)]
  have hold : ∀ v q d, HasFile i v q d ↔ HasFile inv v q d ∨ (v = i.head ∧ HasFile inv inv.head q d) := by
    intro v q d
    unfold HasFile
    rw [hvers]
    constructor
    · rintro ⟨ver, ps, h1, h2, h3⟩
      rcases List.mem_append.1 h1 with h1 | h1
      · exact Or.inl ⟨ver, ps, h1, h2, h3⟩
      · cases List.mem_singleton.1 h1
        exact Or.inr ⟨rfl, (hst q d).1 ⟨ps, h2, h3⟩⟩
    · rintro (⟨ver, ps, h1, h2, h3⟩ | ⟨rfl, h1⟩)
      · exact ⟨ver, ps, List.mem_append_left _ h1, h2, h3⟩
      · obtain ⟨ps, h2, h3⟩ := (hst q d).2 h1
        exact ⟨_, ps, List.mem_append_right _ (List.mem_singleton.2 rfl), h2, h3⟩
  obtain ⟨hrun, hres⟩ := plain_session ha hv he
  obtain ⟨k1, k2, k3⟩ := addAll_new (o := ⟨i, [], false, []⟩) hx hL ⟨hg, hk⟩
    (by rw [(newVersion_frame hv).2.2.1]; exact hh) hd (by
      rintro f hf q hq v ⟨d, hvd⟩
      rcases (hold v q d).1 hvd with h1 | ⟨_, h1⟩
      · exact hnew f hf q hq _ ⟨d, h1⟩
      · exact hnew f hf q hq _ ⟨d, h1⟩) hrun
  have hres := hres (k3 hf)
  have hho := (runCalls_step (w := w) (U := fun _ _ => True) (o := ⟨i, [], false, []⟩) (addAll dup files)
    (fun _ _ _ _ => trivial)).headOnly
  refine ⟨k1, by rw [hres]; exact k3 hf, fun q d => ?_⟩
  rw [hres, hho.head, k2, hold]
  constructor
  · rintro ((h1 | ⟨_, h1⟩) | h1)
    · exfalso
      obtain ⟨ver, ps, hver, _⟩ := h1
      exact hw.1.next_not_mem (by rw [← hhead]; exact mem_mkeys_of_mem hver)
    · exact Or.inl h1
    · exact Or.inr h1
  · rintro (h1 | h1)
    · exact Or.inl (Or.inr ⟨rfl, h1⟩)
    · exact Or.inr h1

/-- where the content files listed after a session come from -/
theorem session_provenance {w : World} {inv : Inv} {n : Nat} {s : Session} {fs : FS} {h : Bytes → Str}
    (hwf : WF inv n) (hc : ValidComp inv.contentDir) (hh : w.hash inv.digestAlg = some h) (ha : '/' ∉ inv.digestAlg)
    (hold : ∀ d m p, (d, m) ∈ inv.manifest → p ∈ m → VersionFile inv n p)
    (hs : SafeNames w s) (hr : s.rounds = [])
    (hnd : (targets w { inv with head := verName inv.paddingLength ((n + 1 : Nat) : Int) }
      (s.before ++ s.body ++ s.after)).Nodup) {d p : Str} {m : List Str} (hd : (d, m) ∈ (session w inv s).obj.inv.manifest)
    (hp : p ∈ m) :
    (∃ m0, (d, m0) ∈ inv.manifest ∧ p ∈ m0 ∧ mget (applyOps fs (session w inv s).obj.trace) p = mget fs p) ∨
    ∃ b, (∃ c ∈ s.calls, b ∈ c.contents) ∧ mget (applyOps fs (session w inv s).obj.trace) p = some b ∧ toLower (h b) = d := by
  obtain ⟨hx1, hx2⟩ := session_once hwf hc ha hold hs hr hnd
  have hrec : RecAlg (fun b => ∃ c ∈ s.calls, b ∈ c.contents) h inv (session w inv s).obj := (recAlg_inv hh).session
    ⟨⟨[], rfl, fun d m p hd hp => Or.inl ⟨m, hd, hp⟩⟩, rfl⟩ (fun c hc b hb => ⟨c, hc, hb⟩)
  obtain ⟨⟨bl, h1, h2⟩, _⟩ := hrec
  have hcnt := hx2 d m p hd hp
  rw [h1] at hx1 hcnt ⊢
  rw [creates_render] at hcnt
  rcases h2 d m p hd hp with ⟨m0, k1, k2⟩ | ⟨b, hb, k1, k2⟩
  · refine Or.inl ⟨m0, k1, k2, mget_applyOps_ne ?_⟩
    intro op hop hpath
    have := hx1 p ⟨d, m0, k1, k2⟩
    rw [creates_render] at this
    exact this (hpath ▸ mem_render_path hop)
  · exact Or.inr ⟨b, hb, mget_render_once k1 hcnt fs, k2⟩

theorem extractNames_succeeds {h : Bytes → Str} {src : FS} {xp : ExtractPath} {i d : Str} {is : List Str} {b : Bytes}
    (hi : mget src i = some b) (hb : h b = d) {names : List Str} (hn : ∀ q ∈ names, ∃ x, xp q = .ok (some x)) :
    (extractNames (some h) src xp (i :: is) d names).err = none := by
  induction names with
  | nil => rfl
  | cons q names ih =>
    obtain ⟨x, hx⟩ := hn q (List.mem_cons_self ..)
    unfold extractNames
    simp only [hx, copyOut, hi, if_pos hb]
    exact ih (fun q hq => hn q (List.mem_cons_of_mem _ hq))

/-- extraction of a version succeeds if its digests are in the manifest, the content has them, and every path has an
extraction name -/
theorem extract_succeeds {w : World} {inv : Inv} {src : FS} {xp : ExtractPath} {v : Str} {wm : Bool} {h : Bytes → Str} {ver : Version}
    (hh : w.hash inv.digestAlg = some h) (hv : mget inv.versions (selectVersion inv v) = some ver)
    (hm : ∀ d ps, (d, ps) ∈ ver.state → ∃ i is b, mget inv.manifest d = some (i :: is) ∧ mget src i = some b ∧ h b = d)
    (hn : ∀ d ps q, (d, ps) ∈ ver.state → q ∈ ps → ∃ x, xp q = .ok (some x)) : (extract w inv src xp v wm).err = none := by
  have : (extractState (w.hash inv.digestAlg) src xp inv.manifest ver.state).err = none := by
    rw [extractState_err_iff]
    rintro ⟨d, ps⟩ he
    obtain ⟨i, is, b, h1, h2, h3⟩ := hm d ps he
    unfold extractOne
    simp only [extractState, h1, hh]
    rw [extractNames_succeeds h2 h3 (fun q hq => hn d ps q he hq)]
  unfold extract
  simp only [hv, this]

/-! ## Storing, loading, extracting -/

/-- the head version of the object in `fs` has the file `q` with content `b` -/
def HeadContent (fs : FS) (inv : Inv) (q : Str) (b : Bytes) : Prop :=
  ∃ d m c, HasFile inv inv.head q d ∧ (d, m) ∈ inv.manifest ∧ c ∈ m ∧ mget fs c = some b

/-- the file `q` with content `b` is expected after the addition of `files`: it was there, or is one of the files -/
def Expected (w : World) (fs : FS) (inv : Inv) (files : List InFile) (q : Str) (b : Bytes) : Prop :=
  HeadContent fs inv q b ∨ ∃ f ∈ files, StatePathOf w f q ∧ f.data = b

/-- the logical paths after the addition -/
def PathAfter (w : World) (inv : Inv) (files : List InFile) (q : Str) : Prop :=
  HasPath inv inv.head q ∨ ∃ f ∈ files, StatePathOf w f q

/-- the contents that are in the object or added to it -/
def KnownContent (fs : FS) (inv : Inv) (files : List InFile) (b : Bytes) : Prop :=
  (∃ d m c, (d, m) ∈ inv.manifest ∧ c ∈ m ∧ mget fs c = some b) ∨ ∃ f ∈ files, f.data = b

/-- What is asked of the files to add to the object `inv` in `fs`. -/
structure GoodFiles (w : World) (h : Bytes → Str) (fs : FS) (inv : Inv) (N : Nat) (s : Session)
    (files : List InFile) : Prop where
  some : files ≠ []
  /-- their names stay in the content directory, each content has its own file -/
  names : SafeNames w s
  targets : (targets w { inv with head := verName inv.paddingLength ((N + 1 : Nat) : Int) } s.body).Nodup
  /-- their logical paths are new, safe, and differ -/
  paths : DistinctPaths w files
  new : ∀ f ∈ files, ∀ q, StatePathOf w f q → NeverHad inv q
  safe : ∀ f ∈ files, ∀ q, StatePathOf w f q → SafePath q
  /-- no path is at the same time a folder -/
  noConflict : ∀ x y, PathAfter w inv files x → PathAfter w inv files y → ¬ UnderDir x y
  /-- no two different contents with one digest among those that are there -/
  noCollision : ∀ b b', KnownContent fs inv files b → KnownContent fs inv files b' → h b = h b' → b = b'

/-- What is asked of the extraction: every path has a name, different ones different names. -/
structure NamesApart (xp : ExtractPath) (P : Str → Prop) : Prop where
  total : ∀ q, P q → ∃ x, xp q = .ok (some x)
  injective : ∀ q q' x, P q → P q' → xp q = .ok (some x) → xp q' = .ok (some x) → q = q'

theorem pathAfter_of {w : World} {fs : FS} {inv : Inv} {files : List InFile} {q : Str} {b : Bytes}
    (h : Expected w fs inv files q b) : PathAfter w inv files q := by
  rcases h with ⟨d, _, _, h, _⟩ | ⟨f, hf, h, _⟩
  · exact Or.inl ⟨d, h⟩
  · exact Or.inr ⟨f, hf, h⟩

/-- an object as the tool leaves it: digests in lower case, one digest for each path of the head version -/
structure Tidy (inv : Inv) : Prop where
  lower : ∀ d ∈ mkeys inv.manifest, toLower d = d
  oneDigest : ∀ q d d', HasFile inv inv.head q d → HasFile inv inv.head q d' → d = d'

section
variable {w : World} {fs : FS} {p N : Nat} {inv : Inv} {s : Session} {dup : Bool} {files : List InFile}
  {h : Bytes → Str}

theorem addsOnly_contents (ha : AddsOnly s dup files) {b : Bytes} (hb : ∃ c ∈ s.calls, b ∈ c.contents) : ∃ f ∈ files, f.data = b := by
  obtain ⟨c, hc, hb⟩ := hb
  unfold Session.calls at hc
  rw [ha.before, ha.after, ha.rounds, ha.body] at hc
  simp only [List.nil_append, List.append_nil, List.flatMap_nil] at hc
  obtain ⟨f, hf, rfl⟩ := List.mem_map.1 hc
  exact ⟨f, hf, (List.mem_singleton.1 hb).symm⟩

theorem invOk_alg (I : InvOk p N inv) : '/' ∉ inv.digestAlg := by
  rcases I.alg with h | h <;> (rw [h]; decide)

theorem invOk_versionFile (I : InvOk p N inv) : ∀ d m c, (d, m) ∈ inv.manifest → c ∈ m → VersionFile inv N c := by
  intro d m c hd hc
  obtain ⟨v, ver, q, hv, rfl⟩ := I.content d m c hd hc
  obtain ⟨k, h1, h2, rfl⟩ := I.wf.1.mem_keys.1 (mem_mkeys_of_mem hv)
  exact ⟨k, h1, h2, inv.contentDir ++ '/' :: q, by simp⟩

/-- the session of such files is clean -/
theorem goodFiles_clean (hx : HexHash w) (hL : LowerHash w) (I : Intact w fs p N inv) (ha : AddsOnly s dup files)
    (hh : w.hash inv.digestAlg = some h) (hg : GoodFiles w h fs inv N s files) (he : (session w inv s).err = none)
    (hwid : 0 < p → (fmtNat (N + 1)).length ≤ p) : CleanSession w p N inv s := by
  obtain ⟨k1, k2, k3⟩ := adds_state hx hL I.ok.wf ha hg.some hh he hg.paths hg.new
  have key : ∀ ver d ps q, ((session w inv s).obj.inv.head, ver) ∈ (session w inv s).obj.inv.versions → (d, ps) ∈ ver.state →
      q ∈ ps → HasFile inv inv.head q d ∨ ∃ f ∈ files, StatePathOf w f q ∧ d = h f.data :=
    fun ver d ps q h1 h2 h3 => (k3 q d).1 ⟨ver, ps, h1, h2, h3⟩
  refine ⟨hg.names, ha.rounds, ?_, he, k2, ⟨?_, ?_⟩, hwid⟩
  · rw [ha.before, ha.after, List.nil_append, List.append_nil]; exact hg.targets
  · intro ver d ps q h1 h2 h3
    rcases key ver d ps q h1 h2 h3 with ⟨ver', ps', g1, g2, g3⟩ | ⟨f, hf, hq, _⟩
    · exact I.ok.paths.1 _ ver' d ps' q g1 g2 g3
    · exact hg.safe f hf q hq
  · intro ver x y h1 hxm hym
    obtain ⟨⟨d, ps⟩, hd, hx'⟩ := List.mem_flatMap.1 hxm
    obtain ⟨⟨d', ps'⟩, hd', hy'⟩ := List.mem_flatMap.1 hym
    refine hg.noConflict x y ?_ ?_
    · rcases key ver d ps x h1 hd hx' with g | ⟨f, hf, hq, _⟩
      · exact Or.inl ⟨d, g⟩
      · exact Or.inr ⟨f, hf, hq⟩
    · rcases key ver d' ps' y h1 hd' hy' with g | ⟨f, hf, hq, _⟩
      · exact Or.inl ⟨d', g⟩
      · exact Or.inr ⟨f, hf, hq⟩

/-- the content expected for a path is one -/
theorem expected_unique (I : Intact w fs p N inv) (hT : Tidy inv) (hh : w.hash inv.digestAlg = some h)
    (hg : GoodFiles w h fs inv N s files) {q : Str} {b b' : Bytes}
    (h1 : Expected w fs inv files q b) (h2 : Expected w fs inv files q b') : b = b' := by
  have dig : ∀ {d m c b}, (d, m) ∈ inv.manifest → c ∈ m → mget fs c = some b → h b = toLower d := by
    intro d m c b hd hc hb
    obtain ⟨b0, hash, g1, g2, g3⟩ := I.files.content d m c hd hc
    rw [hb] at g1; cases g1
    rw [hh] at g2; cases g2
    exact g3
  rcases h1 with ⟨d, m, c, k1, k2, k3, k4⟩ | ⟨f, hf, hq, rfl⟩
  · rcases h2 with ⟨d', m', c', l1, l2, l3, l4⟩ | ⟨f, hf, hq, rfl⟩
    · have := hT.oneDigest q d d' k1 l1
      subst this
      exact hg.noCollision b b' (Or.inl ⟨d, m, c, k2, k3, k4⟩) (Or.inl ⟨d, m', c', l2, l3, l4⟩)
        ((dig k2 k3 k4).trans (dig l2 l3 l4).symm)
    · exact absurd ⟨d, k1⟩ (hg.new f hf q hq _)
  · rcases h2 with ⟨d', m', c', l1, l2, l3, l4⟩ | ⟨g, hg', hq', rfl⟩
    · exact absurd ⟨d', l1⟩ (hg.new f hf q hq _)
    · rw [hg.paths.same hf hg' hq hq']

theorem hasFile_readBack {a : Inv} {r : RawInv} (R : ReadBack w a r) (v q d : Str) : HasFile r.inv v q d ↔ HasFile a v q d := by
  constructor
  · rintro ⟨ver', ps, h1, h2, h3⟩
    obtain ⟨ver, g1, _, _, _, _, g2⟩ := R.version' v ver' h1
    exact ⟨ver, ps, g1, g2.mem_iff.2 h2, h3⟩
  · rintro ⟨ver, ps, h1, h2, h3⟩
    obtain ⟨ver', g1, _, _, _, _, g2⟩ := R.version v ver h1
    exact ⟨ver', ps, g1, g2.mem_iff.1 h2, h3⟩

/-- **C113**, at the object: files added to an object come out again with their content, beside those that were there;
nothing else comes out. -/
theorem C113_object_partial (hc : Codec w) (hx : HexHash w) (hL : LowerHash w) (ht : ∀ t, w.time (w.time t) = w.time t)
    (I : Intact w fs p N inv) (hT : Tidy inv) (ha : AddsOnly s dup files) (hh : w.hash inv.digestAlg = some h)
    (hg : GoodFiles w h fs inv N s files) (he : (session w inv s).err = none)
    (hwid : 0 < p → (fmtNat (N + 1)).length ≤ p) {xp : ExtractPath} (hxp : NamesApart xp (PathAfter w inv files)) (wm : Bool) :
    ∃ r, ValidObject w (applyOps fs (session w inv s).obj.trace) p (N + 1) r ∧ r.inv.digestAlg = inv.digestAlg ∧ r.inv.id = inv.id ∧
      Intact w (applyOps fs (session w inv s).obj.trace) p (N + 1) (loadedInv p r) ∧ Tidy (loadedInv p r) ∧
      (extract w (loadedInv p r) (applyOps fs (session w inv s).obj.trace) xp "latest".toList wm).err = none ∧
      ∀ x b, (wm = true → x ≠ manifestName inv.digestAlg) →
        (mget (applyOps [] (extract w (loadedInv p r) (applyOps fs (session w inv s).obj.trace) xp "latest".toList wm).trace) x = some b ↔
          ∃ q, xp q = .ok (some x) ∧ Expected w fs inv files q b) := by
  obtain ⟨_, hmod, hst⟩ := adds_state hx hL I.ok.wf ha hg.some hh he hg.paths hg.new
  have hcl := goodFiles_clean hx hL I ha hh hg he hwid
  obtain ⟨r, hdec, R, hV, hI⟩ := C80_session_valid hc hx hL ht I hcl
  obtain ⟨i, o, f0, D⟩ := deposited hL I.ok hcl.names hcl.rounds hcl.completes hcl.modified
  obtain ⟨s1, s2, s3, s4, s5, s6, s7, s8⟩ := D.scalars I.ok
  obtain ⟨e1, e2, e3, e4, e5⟩ := R.scalars
  have hprov : ∀ {d m c}, (d, m) ∈ r.inv.manifest → c ∈ m →
      (∃ m0, (d, m0) ∈ inv.manifest ∧ c ∈ m0 ∧ mget (applyOps fs (session w inv s).obj.trace) c = mget fs c) ∨
      ∃ b, (∃ f ∈ files, f.data = b) ∧ mget (applyOps fs (session w inv s).obj.trace) c = some b ∧ toLower (h b) = d := by
    intro d m c hd hcm
    rcases session_provenance (fs := fs) I.ok.wf I.ok.cdir hh (invOk_alg I.ok) (invOk_versionFile I.ok) hcl.names hcl.rounds
      hcl.distinct (R.manifest.mem_iff.2 hd) hcm with g | ⟨b, hb, g⟩
    · exact Or.inl g
    · exact Or.inr ⟨b, addsOnly_contents ha hb, g⟩
  have halg : r.inv.digestAlg = inv.digestAlg := by rw [← e3, D.result]; exact s2
  have hid : r.inv.id = inv.id := by rw [← e1, D.result]; exact s4
  generalize hfs : applyOps fs (session w inv s).obj.trace = fs' at *
  have hhead : r.inv.head = (session w inv s).obj.inv.head := e4.symm
  have hst' : ∀ q d, HasFile r.inv r.inv.head q d ↔ HasFile inv inv.head q d ∨ ∃ f ∈ files, StatePathOf w f q ∧ d = h f.data := by
    intro q d
    rw [hasFile_readBack R, hhead]; exact hst q d
  have hh' : w.hash r.inv.digestAlg = some h := by rw [halg]; exact hh
  -- digests of the new manifest are in lower case
  have hlow : ∀ d m, (d, m) ∈ r.inv.manifest → toLower d = d := by
    intro d m hd
    obtain ⟨c, hcm⟩ := List.exists_mem_of_ne_nil _ (hV.inv.nonempty.1 d m hd)
    rcases hprov hd hcm with ⟨m0, g, _⟩ | ⟨b, _, _, g⟩
    · exact hT.lower d (mem_mkeys_of_mem g)
    · rw [← g, toLower_idem]
  have hcont : ∀ {d m c}, (d, m) ∈ r.inv.manifest → c ∈ m → ∃ b, mget fs' c = some b ∧ h b = d ∧ KnownContent fs inv files b := by
    intro d m c hd hcm
    obtain ⟨b, hash, g1, g2, g3⟩ := hV.files.content d m c hd hcm
    rw [hh'] at g2; cases g2
    refine ⟨b, g1, g3.trans (hlow d m hd), ?_⟩
    rcases hprov hd hcm with ⟨m0, k1, k2, k3⟩ | ⟨b', k1, k2, _⟩
    · exact Or.inl ⟨d, m0, c, k1, k2, by rw [← k3]; exact g1⟩
    · rw [g1] at k2; cases k2
      exact Or.inr k1
  have hnd : (mkeys (loadedInv p r).versions).Nodup := hI.ok.wf.1.nodup
  have hsel : selectVersion (loadedInv p r) "latest".toList = r.inv.head := by
    unfold selectVersion; rw [if_pos (Or.inl rfl)]; rfl
  obtain ⟨ver, hver⟩ := hI.ok.wf.1.head_version (Nat.succ_pos N)
  have hver : mget r.inv.versions r.inv.head = some ver := hver
  have hpath : ∀ q d, HasFile r.inv r.inv.head q d → PathAfter w inv files q := by
    intro q d hq
    rcases (hst' q d).1 hq with g | ⟨f, hf, g, _⟩
    · exact Or.inl ⟨d, g⟩
    · exact Or.inr ⟨f, hf, g⟩
  have hok : (extract w (loadedInv p r) fs' xp "latest".toList wm).err = none := by
    refine extract_succeeds (h := h) (ver := ver) hh' (by rw [hsel]; exact hver) ?_ ?_
    · intro d ps hd
      obtain ⟨m, hm⟩ := hV.inv.covered _ ver d ps (mem_of_mget hver) hd
      obtain ⟨c, cs, rfl⟩ := List.exists_cons_of_ne_nil (hV.inv.nonempty.1 d m hm)
      obtain ⟨b, g1, g2, _⟩ := hcont hm (List.mem_cons_self ..)
      exact ⟨c, cs, b, mget_of_mem hV.inv.manifestKeys hm, g1, g2⟩
    · intro d ps q hd hq
      exact hxp.total q (hpath q d ⟨ver, ps, mem_of_mget hver, hd, hq⟩)
  have hT' : Tidy (loadedInv p r) := by
    refine ⟨?_, ?_⟩
    · intro d hd
      obtain ⟨⟨d', m⟩, hm, rfl⟩ := List.mem_map.1 hd
      exact hlow _ m hm
    · intro q d d' h1 h2
      rcases (hst' q d).1 h1 with g | ⟨f, hf, g, rfl⟩ <;> rcases (hst' q d').1 h2 with g' | ⟨f', hf', g', rfl⟩
      · exact hT.oneDigest q d d' g g'
      · exact absurd ⟨d, g⟩ (hg.new f' hf' q g' _)
      · exact absurd ⟨d', g'⟩ (hg.new f hf q g _)
      · rw [hg.paths.same hf hf' g g']
  refine ⟨r, hV, halg, hid, hI, hT', hok, ?_⟩
  intro x b hx0
  obtain ⟨ver', ds, d1, _, d2, d3, d4, d5⟩ := extract_ok hok
  rw [hsel] at d1
  have d1 : mget r.inv.versions r.inv.head = some ver' := d1
  rw [hver] at d1; cases d1
  -- what is delivered is what is expected
  have hdel : ∀ y ∈ ds, Expected w fs inv files y.path y.data ∧ xp y.path = .ok (some y.name) := by
    intro y hy
    obtain ⟨⟨ps, y1, y2⟩, y3, ⟨c, cs, y4, y5⟩, ⟨h', y6, y7⟩⟩ := d4 y hy
    refine ⟨?_, y3⟩
    have hm := mem_of_mget y4
    obtain ⟨b0, g1, g2, g3⟩ := hcont hm (List.mem_cons_self ..)
    rw [y5] at g1; cases g1
    rcases (hst' y.path y.digest).1 ⟨ver, ps, mem_of_mget hver, y1, y2⟩ with g | ⟨f, hf, g, g'⟩
    · obtain ⟨verO, psO, o1, o2, o3⟩ := g
      obtain ⟨m0, n1⟩ := I.ok.covered.1 _ verO _ o1 (mem_mkeys_of_mem o2)
      obtain ⟨c0, n2⟩ := List.exists_mem_of_ne_nil _ (I.ok.covered.2 _ _ n1)
      obtain ⟨b0, hash, n3, n4, n5⟩ := I.files.content _ _ _ n1 n2
      rw [hh] at n4; cases n4
      have : y.data = b0 := hg.noCollision _ _ g3 (Or.inl ⟨_, _, _, n1, n2, n3⟩)
        (by rw [g2, n5, hT.lower _ (mem_mkeys_of_mem n1)])
      rw [this]
      exact Or.inl ⟨_, m0, c0, ⟨verO, psO, o1, o2, o3⟩, n1, n2, n3⟩
    · refine Or.inr ⟨f, hf, g, ?_⟩
      exact hg.noCollision _ _ (Or.inr ⟨f, hf, rfl⟩) g3 (g'.symm.trans g2.symm)
  have hlast : mget (applyOps [] (extract w (loadedInv p r) fs' xp "latest".toList wm).trace) x = mget (applyOps [] (deliver ds)) x := by
    rw [d2, applyOps_append]
    unfold manifestWrite
    cases wm with
    | false => rfl
    | true => exact mget_writeFile_ne _ _ (fun hc => hx0 rfl (by rw [← halg]; exact hc.symm))
  rw [hlast]
  constructor
  · intro hb
    have hmem : x ∈ ds.map Delivery.name := by
      by_contra hn
      rw [deliver_other hn] at hb
      cases hb
    obtain ⟨y, hy, y1, y2⟩ := deliver_last (fs := []) hmem
    rw [hb] at y2; cases y2
    obtain ⟨g1, g2⟩ := hdel y hy
    exact ⟨y.path, by rw [← y1]; exact g2, g1⟩
  · rintro ⟨q, hq, hE⟩
    obtain ⟨d, hqd⟩ : ∃ d, HasFile r.inv r.inv.head q d := by
      rcases hE with ⟨d, _, _, g, _⟩ | ⟨f, hf, g, _⟩
      · exact ⟨d, (hst' q d).2 (Or.inl g)⟩
      · exact ⟨_, (hst' q _).2 (Or.inr ⟨f, hf, g, rfl⟩)⟩
    obtain ⟨verQ, ps, q1, q2, q3⟩ := hqd
    have : verQ = ver := by
      have := mget_of_mem hnd q1
      rw [show mget (loadedInv p r).versions r.inv.head = some ver from hver] at this
      cases this; rfl
    subst this
    obtain ⟨taken, t1, t2⟩ := d5 d ps q2
    have htaken : ps = taken := by
      rcases t2 with ⟨rest, z, t2, t3⟩ | t2
      · obtain ⟨x', hx'⟩ := hxp.total z (hpath z d ⟨verQ, ps, q1, q2, by rw [t2]; simp⟩)
        rw [hx'] at t3; cases t3
      · exact t2
    obtain ⟨y, hy, y1, _⟩ := t1 q (htaken ▸ q3)
    obtain ⟨g1, g2⟩ := hdel y hy
    have hyx : y.name = x := by
      rw [y1, hq] at g2; cases g2; rfl
    obtain ⟨z, hz, z1, z2⟩ := deliver_last (fs := []) (List.mem_map.2 ⟨y, hy, hyx⟩)
    obtain ⟨k1, k2⟩ := hdel z hz
    rw [z1] at k2
    have := hxp.injective _ _ x (pathAfter_of k1) (pathAfter_of hE) k2 hq
    rw [this] at k1
    rw [z2, expected_unique I hT hh hg k1 hE]

end

/-! ## The commands -/

/-- a valid object in the folder of an id is opened by the id -/
theorem loadByID_valid {w : World} (env : Env) (plain : Bool) (blank : Inv) {ls : List (Str → Res Str)} {fs : FS} {id : Str} {p N : Nat}
    {r : RawInv} (hl : (rootPath ls id).2 = false) (O : ValidObject w (subFS fs (rootPath ls id).1) p N r) :
    ∃ f, loadByID w env plain blank ls fs id = .ok (loadedInv p r, f) := by
  obtain ⟨f, hf⟩ := load_valid_any env O.stored O.decoded O.inv
  obtain ⟨num, hv, hd, ho⟩ := O.decl
  have hver : getVersion objDecl (topFiles (subFS fs (rootPath ls id).1)) = .version num := by
    refine getVersion_topFiles hv O.nodup hd (fun k hk hs => ?_)
    obtain ⟨b, hb⟩ := Option.ne_none_iff_exists'.1 hk
    rcases ho k b hb hs with h | h | h
    · exact Or.inl h
    · right; rw [h]; decide
    · right
      rw [h]
      rcases O.alg with h | h <;> (rw [h]; decide)
  obtain ⟨b, _, _, hb, _⟩ := O.stored
  refine ⟨f, ?_⟩
  unfold loadByID loadByFolder loadInventory
  rw [hl, hver]
  simp only [Bool.false_eq_true, if_false, hb]
  exact hf

theorem rootPath_of_exists {ls : List (Str → Res Str)} {fs : FS} {id : Str} {b : Bool} (h : objectExists ls fs id = .ok b) :
    (rootPath ls id).2 = false := by
  unfold objectExists at h
  split at h
  · cases h
  · rename_i hh; exact Bool.eq_false_iff.2 hh

/-- What is asked of the files of a new object (`GoodFiles` without what concerns the files that are there). -/
structure NewFiles (w : World) (h : Bytes → Str) (a : CreateArgs) (id : Str) (s : Session)
    (files : List InFile) : Prop where
  some : files ≠ []
  names : SafeNames w s
  targets : (targets w { newInv id a.spec a.alg a.contentDir a.fixity with head := "v1".toList } s.body).Nodup
  paths : DistinctPaths w files
  safe : ∀ f ∈ files, ∀ q, StatePathOf w f q → SafePath q
  noConflict : ∀ f ∈ files, ∀ g ∈ files, ∀ x y, StatePathOf w f x → StatePathOf w g y → ¬ UnderDir x y
  noCollision : ∀ f ∈ files, ∀ g ∈ files, h f.data = h g.data → f.data = g.data

/-- the object with this id opens, and extraction of its latest version leaves in an empty folder exactly the files
described by `E` under their extraction names (beside the manifest, if asked for) -/
def ComesOut (w : World) (env : Env) (plain : Bool) (blank : Inv) (ls : List (Str → Res Str)) (fs : FS) (id : Str)
    (xp : ExtractPath) (wm : Bool) (E : Str → Bytes → Prop) : Prop :=
  ∃ i f, loadByID w env plain blank ls fs id = .ok (i, f) ∧ i.id = id ∧
    (extract w i (subFS fs (rootPath ls id).1) xp "latest".toList wm).err = none ∧
    ∀ x b, (wm = true → x ≠ manifestName i.digestAlg) →
      (mget (applyOps [] (extract w i (subFS fs (rootPath ls id).1) xp "latest".toList wm).trace) x = some b ↔
        ∃ q, xp q = .ok (some x) ∧ E q b)

/-- the files of a source folder -/
def Source (w : World) (files : List InFile) (q : Str) (b : Bytes) : Prop :=
  ∃ f ∈ files, StatePathOf w f q ∧ f.data = b

/-- **C113, in full** (false): what `add` stored with success comes out again. -/
def C113_full : Prop := ∀ (w : World) (env : Env) (plain : Bool) (blank : Inv) (ls : List (Str → Res Str)) (a : CreateArgs) (fs : FS)
  (id : Str) (s : Session) (dup : Bool) (files : List InFile) (h : Bytes → Str) (xp : ExtractPath) (wm : Bool),
  Codec w → HexHash w → LowerHash w → (∀ t, w.time (w.time t) = w.time t) → GoodArgs a id → w.hash a.alg = some h →
  objectExists ls fs id = .ok false → AddsOnly s dup files → (addCmd w env plain blank ls a fs id s).2 = none →
  SafeNames w s → DistinctPaths w files → (∀ f ∈ files, ∀ q, StatePathOf w f q → SafePath q) →
  (∀ f ∈ files, ∀ g ∈ files, ∀ x y, StatePathOf w f x → StatePathOf w g y → ¬ UnderDir x y) →
  (∀ f ∈ files, ∀ g ∈ files, h f.data = h g.data → f.data = g.data) → NamesApart xp (fun q => ∃ f ∈ files, StatePathOf w f q) →
  ComesOut w env plain blank ls (applyOps fs (addCmd w env plain blank ls a fs id s).1) id xp wm (Source w files)

section
variable {w : World} {env : Env} {plain : Bool} {blank : Inv} {ls : List (Str → Res Str)} {a : CreateArgs} {fs : FS} {id : Str}
  {s : Session} {dup : Bool} {files : List InFile} {h : Bytes → Str}

/-- **C113**, `add`: the files of a source folder come out again under their names with their content, and nothing
else does; the object is ready for further updates. -/
theorem C113_add_partial (hc : Codec w) (hx : HexHash w) (hL : LowerHash w) (ht : ∀ t, w.time (w.time t) = w.time t)
    (hga : GoodArgs a id) (hh : w.hash a.alg = some h) (hex : objectExists ls fs id = .ok false) (ha : AddsOnly s dup files)
    (he : (addCmd w env plain blank ls a fs id s).2 = none) (hf : NewFiles w h a id s files) {xp : ExtractPath}
    (hxp : NamesApart xp (fun q => ∃ f ∈ files, StatePathOf w f q)) (wm : Bool) :
    ComesOut w env plain blank ls (applyOps fs (addCmd w env plain blank ls a fs id s).1) id xp wm (Source w files) ∧
    ∃ r, Intact w (subFS (applyOps fs (addCmd w env plain blank ls a fs id s).1) (rootPath ls id).1) 0 1 (loadedInv 0 r) ∧
      Tidy (loadedInv 0 r) ∧
      ∃ f, loadByID w env plain blank ls (applyOps fs (addCmd w env plain blank ls a fs id s).1) id = .ok (loadedInv 0 r, f) := by
  have hadd : addCmd w env plain blank ls a fs id s = addObjectByPath w env plain blank ls a fs id s := by
    unfold addCmd; rw [hex]
  rw [hadd] at he ⊢
  unfold addObjectByPath at he ⊢
  rw [hex] at he ⊢
  simp only at he ⊢
  cases hcr : (createObject ls a fs id).2 with
  | error e => rw [hcr] at he; cases he
  | ok x =>
    obtain ⟨folder, inv⟩ := x
    rw [hcr] at he
    simp only at he ⊢
    obtain ⟨rfl, hinv, hemp, hops⟩ := createObject_ok hcr
    have hini : (initObject a [] id).2 = .ok inv := by
      unfold createObject at hcr
      simp only [hemp] at hcr
      obtain ⟨j, hj, hcr⟩ := res_bind_eq_ok.1 hcr
      split at hcr
      · cases hcr
      · cases hcr; exact hj
    obtain ⟨I, hI⟩ := intact_new (w := w) hga hini
    have hsub : subFS (applyOps fs ((createObject ls a fs id).1 ++ (inFolder (rootPath ls id).1 (session w inv s)).1)) (rootPath ls id).1 =
        applyOps (applyOps [] (initObject a [] id).1) (session w inv s).obj.trace := by
      rw [applyOps_append]
      unfold inFolder
      rw [subFS_applyOps_lift]
      congr 1
      have : (createObject ls a fs id).1 = (initObject a [] id).1.map (FsOp.lift (rootPath ls id).1) := by
        unfold createObject; simp only [hemp]
      rw [this, subFS_applyOps_lift, hemp]
    have hno : ∀ v q, ¬ HasPath inv v q := by
      rw [hI]
      rintro v q ⟨d, ver, ps, hv, _⟩
      cases hv
    have hman : ∀ d m, (d, m) ∉ inv.manifest := by rw [hI]; intro d m hm; cases hm
    have hpath : ∀ q, PathAfter w inv files q ↔ ∃ f ∈ files, StatePathOf w f q := by
      intro q
      constructor
      · rintro (hq | hq)
        · exact absurd hq (hno _ _)
        · exact hq
      · exact Or.inr
    have hT : Tidy inv := by
      refine ⟨?_, fun q d d' h1 => absurd ⟨d, h1⟩ (hno _ q)⟩
      intro d hd
      obtain ⟨⟨d', m⟩, hm, _⟩ := List.mem_map.1 hd
      exact absurd hm (hman d' m)
    have hdig : inv.digestAlg = a.alg := by rw [hI]; rfl
    have hid : inv.id = id := by rw [hI]; rfl
    have hg : GoodFiles w h (applyOps [] (initObject a [] id).1) inv 0 s files := by
      refine ⟨hf.some, hf.names, ?_, hf.paths, fun f hf q hq v => hno v q, hf.safe, ?_, ?_⟩
      · rw [hI]; exact hf.targets
      · intro x y hx hy
        obtain ⟨f, f1, f2⟩ := (hpath x).1 hx
        obtain ⟨g, g1, g2⟩ := (hpath y).1 hy
        exact hf.noConflict f f1 g g1 x y f2 g2
      · rintro b b' (⟨d, m, _, hm, _⟩ | ⟨f, f1, rfl⟩) (⟨d', m', _, hm', _⟩ | ⟨g, g1, rfl⟩)
        · exact absurd hm (hman _ _)
        · exact absurd hm (hman _ _)
        · exact absurd hm' (hman _ _)
        · exact hf.noCollision f f1 g g1
    obtain ⟨r, O, r1, r2, r3, r4, r5, r6⟩ := C113_object_partial hc hx hL ht I hT ha (by rw [hdig]; exact hh) hg he
      (fun h0 => absurd h0 (Nat.lt_irrefl 0)) (xp := xp) ⟨fun q hq => hxp.total q ((hpath q).1 hq),
        fun q q' x h1 h2 => hxp.injective q q' x ((hpath q).1 h1) ((hpath q').1 h2)⟩ wm
    rw [← hsub] at O r3 r5 r6
    obtain ⟨f, hload⟩ := loadByID_valid env plain blank (rootPath_of_exists hex) O
    refine ⟨⟨_, f, hload, r2.trans hid, r5, ?_⟩, r, r3, r4, f, hload⟩
    intro x b hx0
    rw [r6 x b (fun hw => by rw [← r1]; exact hx0 hw)]
    refine exists_congr (fun q => and_congr_right (fun _ => ?_))
    constructor
    · rintro (⟨d, _, _, h1, _⟩ | h1)
      · exact absurd ⟨d, h1⟩ (hno _ q)
      · exact h1
    · exact Or.inr

/-- **C113**, `update`: files added to an object come out beside those that were there, with their content. -/
theorem C113_update_partial {inv : Inv} {f0 : List Fnd} {p N : Nat} (hc : Codec w) (hx : HexHash w) (hL : LowerHash w)
    (ht : ∀ t, w.time (w.time t) = w.time t) (hl : loadByID w env plain blank ls fs id = .ok (inv, f0)) (hid : inv.id = id)
    (I : Intact w (subFS fs (rootPath ls id).1) p N inv) (hT : Tidy inv) (hh : w.hash inv.digestAlg = some h)
    (ha : AddsOnly s dup files) (he : (updateCmd w env plain blank ls a fs id s).2 = none)
    (hg : GoodFiles w h (subFS fs (rootPath ls id).1) inv N s files) (hwid : 0 < p → (fmtNat (N + 1)).length ≤ p)
    {xp : ExtractPath} (hxp : NamesApart xp (PathAfter w inv files)) (wm : Bool) :
    ComesOut w env plain blank ls (applyOps fs (updateCmd w env plain blank ls a fs id s).1) id xp wm
      (Expected w (subFS fs (rootPath ls id).1) inv files) ∧
    ∃ r, Intact w (subFS (applyOps fs (updateCmd w env plain blank ls a fs id s).1) (rootPath ls id).1) p (N + 1) (loadedInv p r) ∧
      Tidy (loadedInv p r) ∧
      ∃ f, loadByID w env plain blank ls (applyOps fs (updateCmd w env plain blank ls a fs id s).1) id = .ok (loadedInv p r, f) := by
  have hroot : (rootPath ls id).2 = false := by
    unfold loadByID at hl
    split at hl
    · cases hl
    · rename_i hr; exact Bool.eq_false_iff.2 hr
  have hex : objectExists ls fs id = .ok true := by
    cases hx : objectExists ls fs id with
    | error e => unfold objectExists at hx; rw [hroot] at hx; cases hx
    | ok b =>
      have : b = true := by
        rw [C94_exists_exact _ _ _ _ hx]
        obtain ⟨num, _, hd, _⟩ := I.decl
        exact ⟨_, _, by rw [← mget_subFS]; exact hd⟩
      rw [this]
  have hupd : updateCmd w env plain blank ls a fs id s = inFolder (rootPath ls id).1 (session w inv s) := by
    unfold updateCmd addObjectByPath
    simp only [hex, hl]
  rw [hupd] at he ⊢
  have hsub : subFS (applyOps fs (inFolder (rootPath ls id).1 (session w inv s)).1) (rootPath ls id).1 =
      applyOps (subFS fs (rootPath ls id).1) (session w inv s).obj.trace := subFS_applyOps_lift _ _ _
  obtain ⟨r, O, r1, r2, r3, r4, r5, r6⟩ := C113_object_partial hc hx hL ht I hT ha hh hg he hwid hxp wm
  rw [← hsub] at O r3 r5 r6
  obtain ⟨f, hload⟩ := loadByID_valid env plain blank hroot O
  exact ⟨⟨_, f, hload, r2.trans hid, r5, fun x b hx0 => r6 x b (fun hw => by rw [← r1]; exact hx0 hw)⟩, r, r3, r4, f, hload⟩

end

/-! ## Concrete cases -/

/-- two of the files have the same content -/
def rtFiles : List InFile := [⟨"content".toList, "c/d".toList, [1, 2]⟩, ⟨"content".toList, "e".toList, [7]⟩, ⟨"metadata".toList, "f".toList, [1, 2]⟩]

def rtSession (files : List InFile) : Session := { exSession [] with body := addAll true files }

theorem rtSession_adds (files : List InFile) : AddsOnly (rtSession files) true files := ⟨rfl, rfl, rfl, rfl, rfl⟩

/-- everything is extracted under its own name -/
def rtXp : ExtractPath := fun q => .ok (some q)

theorem rtXp_apart (P : Str → Prop) : NamesApart rtXp P :=
  ⟨fun q _ => ⟨q, rfl⟩, fun q q' x _ _ h h' => by cases h; cases h'; rfl⟩

theorem rtState {f : InFile} {q : Str} : StatePathOf exKeep f q ↔ q = f.path := by
  constructor
  · intro h; cases h; rfl
  · rintro rfl; rfl

def rtHash (b : Bytes) : Str := 'a' :: List.replicate b.length '0'

theorem rtHash_eq : exKeep.hash "sha512".toList = some rtHash :=
  (if_pos rfl : (if "sha512".toList = "sha512".toList then some rtHash else none) = some rtHash)

theorem rt_names {files : List InFile} (h : ∀ f ∈ files, ∃ k, walk 0 (splitOn '/' f.path) = some (k + 1)) :
    SafeNames exKeep (rtSession files) := by
  intro x hx i hi
  have hx : x ∈ (addAll true files).flatMap Call.uses := by
    simpa [Session.uses, rtSession, exSession, callsUses] using hx
  obtain ⟨c, hc, hx⟩ := List.mem_flatMap.1 hx
  obtain ⟨f, hf, rfl⟩ := List.mem_map.1 hc
  cases List.mem_singleton.1 hx
  cases hi
  exact h f hf

theorem rt_paths {files : List InFile} (h : (files.map InFile.path).Nodup) : DistinctPaths exKeep files := by
  unfold DistinctPaths
  have : files.Pairwise (fun f g => f.path ≠ g.path) := List.pairwise_map.1 h
  refine this.imp (fun hfg q h1 h2 => hfg ?_)
  rw [← rtState.1 h1, ← rtState.1 h2]

theorem rt_new : NewFiles exKeep rtHash exArgs "a".toList (rtSession rtFiles) rtFiles where
  some := by decide
  names := rt_names (by
    have : ∀ f ∈ rtFiles, walk 0 (splitOn '/' f.path) = some 1 ∨ walk 0 (splitOn '/' f.path) = some 2 := by decide
    intro f hf
    rcases this f hf with h | h
    · exact ⟨0, h⟩
    · exact ⟨1, h⟩)
  targets := by decide
  paths := rt_paths (by decide)
  safe := by
    intro f hf q hq
    rw [rtState.1 hq]
    have : ∀ f ∈ rtFiles, ∀ seg ∈ splitOn '/' f.path, seg ≠ [] ∧ seg ≠ ".".toList ∧ seg ≠ "..".toList := by decide
    exact this f hf
  noConflict := by
    rintro f hf g hg x y hx hy ⟨t, ht⟩
    rw [rtState.1 hx, rtState.1 hy] at ht
    have : ∀ f ∈ rtFiles, ∀ g ∈ rtFiles, ¬ (f.path ++ ['/']) <+: g.path := by decide
    exact this f hf g hg ⟨t, by rw [ht]; simp⟩
  noCollision := by decide

/-- the hypotheses are met: three files are added, two of them with one content, and come out again -/
theorem rt_add : ComesOut exKeep exEnv true (blankInv [] []) flatLayout
    (applyOps [] (addCmd exKeep exEnv true (blankInv [] []) flatLayout exArgs [] "a".toList (rtSession rtFiles)).1) "a".toList rtXp true
    (Source exKeep rtFiles) :=
  (C113_add_partial (codecWorld_codec _) (codecWorld_hex _) exKeep_lower (fun _ => rfl) exArgs_good rtHash_eq (by decide)
    (rtSession_adds rtFiles) (by decide) rt_new (rtXp_apart _) true).1

/-- **C113 fails** for an empty source folder: `add` reports success, but no inventory is stored and the object cannot be
opened. -/
theorem C113_full_fails : ¬ C113_full := by
  intro hf
  have h := hf exKeep exEnv true (blankInv [] []) flatLayout exArgs [] "a".toList (rtSession []) true [] rtHash rtXp false
    (codecWorld_codec _) (codecWorld_hex _) exKeep_lower (fun _ => rfl) exArgs_good rtHash_eq (by decide) (rtSession_adds []) (by decide)
    (rt_names (fun f hf => by cases hf)) List.Pairwise.nil (fun f hf => by cases hf) (fun f hf => by cases hf) (fun f hf => by cases hf)
    (rtXp_apart _)
  obtain ⟨i, f, h1, _⟩ := h
  have h2 : (loadByID exKeep exEnv true (blankInv [] []) flatLayout
      (applyOps [] (addCmd exKeep exEnv true (blankInv [] []) flatLayout exArgs [] "a".toList (rtSession [])).1) "a".toList).toOption.isNone = true := by
    decide
  rw [h1] at h2
  cases h2

/-- an update of the object of `exFirst_clean` (the file `c/d` with content `7`): `g` with the content that is there, and `h` -/
def rtMore : List InFile := [⟨"content".toList, "g".toList, [7]⟩, ⟨"ab".toList, "h".toList, [3, 3, 3]⟩]

noncomputable def rtDisk : FS :=
  applyOps (applyOps [] (initObject exArgs [] "a".toList).1) (session exKeep lifeInv0 (exSession "c/d".toList)).obj.trace

theorem rt_life : Life exKeep exEnv exArgs "a".toList rtDisk 1 lifeInv1 := life_next (life_start exEnv) exFirst_clean

theorem rt_intact : Intact exKeep rtDisk 0 1 lifeInv1 :=
  (life_alive (codecWorld_codec _) (codecWorld_hex _) exKeep_lower (fun _ => rfl) exArgs_good rt_life).intact

theorem rt_hasFile {v q d : Str} : HasFile lifeInv1 v q d ↔ v = "v1".toList ∧ q = "c/d".toList ∧ d = "a0".toList := by
  unfold HasFile
  have h : lifeInv1.versions = [("v1".toList, ⟨[], [], [], [], [("a0".toList, ["c/d".toList])]⟩)] := by decide
  rw [h]
  constructor
  · rintro ⟨ver, ps, h1, h2, h3⟩
    cases List.mem_singleton.1 h1
    cases List.mem_singleton.1 h2
    exact ⟨rfl, List.mem_singleton.1 h3, rfl⟩
  · rintro ⟨rfl, rfl, rfl⟩
    exact ⟨_, _, List.mem_singleton.2 rfl, List.mem_singleton.2 rfl, List.mem_singleton.2 rfl⟩

theorem rt_manifest {d : Str} {m : List Str} (h : (d, m) ∈ lifeInv1.manifest) : d = "a0".toList ∧ m = ["v1/content/c/d".toList] := by
  have h1 : lifeInv1.manifest = [("a0".toList, ["v1/content/c/d".toList])] := by decide
  rw [h1] at h
  cases List.mem_singleton.1 h
  exact ⟨rfl, rfl⟩

theorem rt_tidy : Tidy lifeInv1 := by
  refine ⟨?_, fun q d d' h1 h2 => by rw [(rt_hasFile.1 h1).2.2, (rt_hasFile.1 h2).2.2]⟩
  intro d hd
  obtain ⟨⟨d', m⟩, hm, rfl⟩ := List.mem_map.1 hd
  rw [show (d', m).1 = "a0".toList from (rt_manifest hm).1]
  decide

theorem rt_pathAfter {q : Str} (h : PathAfter exKeep lifeInv1 rtMore q) : q ∈ ["c/d".toList, "g".toList, "h".toList] := by
  rcases h with ⟨d, h⟩ | ⟨f, hf, h⟩
  · rw [(rt_hasFile.1 h).2.1]; decide
  · rw [rtState.1 h]
    have : ∀ f ∈ rtMore, f.path ∈ ["c/d".toList, "g".toList, "h".toList] := by decide
    exact this f hf

theorem rt_known {b : Bytes} (h : KnownContent rtDisk lifeInv1 rtMore b) : b ∈ [([7] : Bytes), [3, 3, 3]] := by
  rcases h with ⟨d, m, c, hm, hc, hb⟩ | ⟨f, hf, rfl⟩
  · obtain ⟨_, rfl⟩ := rt_manifest hm
    rw [List.mem_singleton.1 hc] at hb
    have : mget rtDisk "v1/content/c/d".toList = some [7] := by decide
    rw [this] at hb; cases hb
    decide
  · have : ∀ f ∈ rtMore, f.data ∈ [([7] : Bytes), [3, 3, 3]] := by decide
    exact this f hf

theorem rt_good : GoodFiles exKeep rtHash rtDisk lifeInv1 1 (rtSession rtMore) rtMore where
  some := by decide
  names := rt_names (by
    have : ∀ f ∈ rtMore, walk 0 (splitOn '/' f.path) = some 1 := by decide
    exact fun f hf => ⟨0, this f hf⟩)
  targets := by decide
  paths := rt_paths (by decide)
  new := by
    rintro f hf q hq v ⟨d, hd⟩
    have : ∀ f ∈ rtMore, f.path ≠ "c/d".toList := by decide
    exact this f hf (by rw [← rtState.1 hq]; exact (rt_hasFile.1 hd).2.1)
  safe := by
    intro f hf q hq
    rw [rtState.1 hq]
    have : ∀ f ∈ rtMore, ∀ seg ∈ splitOn '/' f.path, seg ≠ [] ∧ seg ≠ ".".toList ∧ seg ≠ "..".toList := by decide
    exact this f hf
  noConflict := by
    rintro x y hx hy ⟨t, ht⟩
    have : ∀ x ∈ ["c/d".toList, "g".toList, "h".toList], ∀ y ∈ ["c/d".toList, "g".toList, "h".toList], ¬ (x ++ ['/']) <+: y := by decide
    exact this x (rt_pathAfter hx) y (rt_pathAfter hy) ⟨t, by rw [ht]; simp⟩
  noCollision := by
    intro b b' h1 h2
    have : ∀ b ∈ [([7] : Bytes), [3, 3, 3]], ∀ b' ∈ [([7] : Bytes), [3, 3, 3]], rtHash b = rtHash b' → b = b' := by decide
    exact this b (rt_known h1) b' (rt_known h2)

/-- the storage root with that object -/
noncomputable def rtRoot : FS := exStore flatLayout "a".toList

theorem rtRoot_sub : subFS rtRoot (rootPath flatLayout "a".toList).1 = rtDisk := by
  unfold rtRoot exStore rtDisk
  rw [subFS_applyOps_lift]
  congr 1

theorem rtRoot_load : ∃ f, loadByID exKeep exEnv true (blankInv [] []) flatLayout rtRoot "a".toList = .ok (lifeInv1, f) := by
  have A := life_alive (codecWorld_codec _) (codecWorld_hex _) exKeep_lower (fun _ => rfl) exArgs_good rt_life
  obtain ⟨r, hV, hr⟩ := A.valid (by decide)
  rw [hr]
  exact loadByID_valid _ _ _ rfl (by rw [rtRoot_sub]; exact hV)

/-- the hypotheses of the theorem on `update` are met: `c/d` that was there, `g` with its content and `h` come out -/
theorem rt_update : ComesOut exKeep exEnv true (blankInv [] []) flatLayout
    (applyOps rtRoot (updateCmd exKeep exEnv true (blankInv [] []) flatLayout exArgs rtRoot "a".toList (rtSession rtMore)).1) "a".toList
    rtXp true (Expected exKeep rtDisk lifeInv1 rtMore) := by
  obtain ⟨f, hl⟩ := rtRoot_load
  have hsess : (session exKeep lifeInv1 (rtSession rtMore)).err = none := by decide
  have hex : objectExists flatLayout rtRoot "a".toList = .ok true := by
    unfold objectExists
    rw [rtRoot_sub]
    rfl
  have h := (C113_update_partial (w := exKeep) (a := exArgs) (codecWorld_codec _) (codecWorld_hex _) exKeep_lower (fun _ => rfl) hl rfl
    (by rw [rtRoot_sub]; exact rt_intact) rt_tidy rtHash_eq (rtSession_adds rtMore)
    (by unfold updateCmd addObjectByPath; simp only [hex, hl]; exact hsess)
    (by rw [rtRoot_sub]; exact rt_good) (fun h => absurd h (Nat.lt_irrefl 0)) (rtXp_apart _) true).1
  rw [rtRoot_sub] at h
  exact h

end Gocfl
