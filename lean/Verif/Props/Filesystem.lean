import Verif.Model.Filesystem
import Verif.Props.Migration
import Verif.Props.JsonL
import Verif.Props.NoFalseAlarm
import Verif.Props.Sessions
import Verif.Props.OwnValid
import Verif.Props.Metadata

/-!
# C106–C109: records about files and folders

C106: with the filesystem extension and its setting `folders`, every folder of the source is kept, by a placeholder file.
C107: the filesystem metadata of the files added is reported.  C108: recording metadata does not make an update fail.
-/

namespace Gocfl

/-! ### Adding files loses no path of the head version -/

/-- `o'` results from `o` by adding files to the head version. -/
structure OnlyAdds (o o' : Obj) : Prop where
  inv : HeadOnly o.inv o'.inv
  echo : o'.echo = o.echo
  paths : ∀ q, HasPath o.inv o.inv.head q → HasPath o'.inv o.inv.head q
  man : ∀ d ∈ mkeys o.inv.manifest, d ∈ mkeys o'.inv.manifest
  refs : RefsResolve o.inv → RefsResolve o'.inv
  wf : ∀ n, WF o.inv n → WF o'.inv n

theorem OnlyAdds.refl (o : Obj) : OnlyAdds o o := ⟨HeadOnly.refl _, rfl, fun _ h => h, fun _ h => h, fun h => h, fun _ h => h⟩

theorem OnlyAdds.ofInv {o o' : Obj} (hi : o'.inv = o.inv) (he : o'.echo = o.echo) : OnlyAdds o o' := by
  refine ⟨by rw [hi]; exact HeadOnly.refl _, he, fun _ h => by rw [hi]; exact h, fun _ h => by rw [hi]; exact h,
    fun h => by rw [hi]; exact h, fun _ h => by rw [hi]; exact h⟩

theorem OnlyAdds.trans {a b c : Obj} (h : OnlyAdds a b) (h' : OnlyAdds b c) : OnlyAdds a c where
  inv := h.inv.trans h'.inv
  echo := h'.echo.trans h.echo
  paths := fun q hq => by rw [← h.inv.head]; exact h'.paths q (by rw [h.inv.head]; exact h.paths q hq)
  man := fun d hd => h'.man d (h.man d hd)
  refs := fun hr => h'.refs (h.refs hr)
  wf := fun n hn => h'.wf n (h.wf n hn)

/-- one name -/
theorem addName_paths {inv inv' : Inv} {n : Nat} {mp d p : Str} (hg : GapFree inv n) (h : addName inv mp d p = .ok inv') :
    (∀ q, HasPath inv inv.head q → HasPath inv' inv.head q) ∧
    (alreadyExists inv p d = .ok false → HasFile inv' inv.head p d) := by
  obtain ⟨s, dup, upd, hs, hdup, hupd, hs', _, _, _, hh⟩ := addName_ok h
  have hf : ∀ q e, HasFile inv' inv.head q e ↔
      (InSt s q e ∧ (upd = true → q ≠ p)) ∨ (dup = false ∧ q = p ∧ e = d) := by
    intro q e
    rw [← hh.head, hasFile_head (hh.nodup hg.nodup) hs', inSt_stAddName]
  have hud : upd = true → dup = false := by
    intro hu
    subst hu
    by_cases hd : d = []
    · subst hd
      unfold alreadyExists at hdup
      rw [if_pos rfl] at hdup
      cases hdup
      rfl
    · obtain ⟨r, hr, hb⟩ := (isUpdate_ok hd).1 hupd
      obtain ⟨r', hr', hb'⟩ := (alreadyExists_ok hd).1 hdup
      rw [hr] at hr'
      cases hr'
      obtain ⟨x, hx, hxd⟩ := of_decide_eq_true hb.symm
      rw [hb', hx]
      simpa using hxd
  constructor
  · rintro q ⟨e, he⟩
    have he' := (hasFile_head hg.nodup hs).1 he
    by_cases hq : upd = true ∧ q = p
    · exact ⟨d, (hf _ _).2 (Or.inr ⟨hud hq.1, hq.2, rfl⟩)⟩
    · exact ⟨e, (hf _ _).2 (Or.inl ⟨he', fun h1 h2 => hq ⟨h1, h2⟩⟩)⟩
  · intro he
    rw [hdup] at he
    cases he
    exact (hf _ _).2 (Or.inr ⟨rfl, rfl, rfl⟩)

/-- several names of one content -/
theorem addFile_onlyAdds {inv inv' : Inv} {n : Nat} {ns : List Str} {mp : Str} {cs : AMap Str Str} (hg : GapFree inv n)
    (hmp : mp ≠ []) (h : addFile inv ns mp cs = .ok inv') :
    (∀ q, HasPath inv inv.head q → HasPath inv' inv.head q) ∧
    (∀ d ∈ mkeys inv.manifest, d ∈ mkeys inv'.manifest) ∧ (RefsResolve inv → RefsResolve inv') := by
  obtain ⟨dig, hdig, h⟩ := addFile_ok h
  obtain ⟨f1, f2, f3, _, f5⟩ := addFixity_fold inv mp cs
  have := foldlM_inv (P := fun i => GapFree i n ∧ i.head = inv.head ∧
      (∀ q, HasPath inv inv.head q → HasPath i inv.head q) ∧ (∀ d ∈ mkeys inv.manifest, d ∈ mkeys i.manifest) ∧
      (RefsResolve inv → RefsResolve i))
    (f := fun i nm => addName i mp (toLower dig) nm) (l := ns)
    (by
      rintro b a b' _ ⟨b1, b2, b3, b4, b5⟩ hs
      obtain ⟨_, _, _, _, _, _, _, hm, _, _, hh⟩ := addName_ok hs
      have hp := (addName_paths b1 hs).1
      rw [b2] at hp
      refine ⟨hh.gapFree b1, hh.head.trans b2, fun q hq => hp q (b3 q hq), ?_, fun hr => addName_refsResolve b1.nodup (b5 hr) hmp hs⟩
      intro d hd
      rw [hm]
      exact (mkeys_manAdd hmp).2 (Or.inr (b4 d hd)))
    _ _ ⟨f5.gapFree hg, f2, by
      rintro q ⟨d, hq⟩
      refine ⟨d, ?_⟩
      rw [hasFile_iff hg.nodup] at hq
      rw [hasFile_iff (f5.nodup hg.nodup), f1]
      exact hq, by rw [f3]; exact fun _ h => h, fun hr => by
        refine ⟨fun v ver d hv => ?_, fun d m hm => hr.2 d m (f3 ▸ hm)⟩
        rw [f1] at hv; rw [f3]; exact hr.1 v ver d hv⟩ h
  exact this.2.2

theorem addReader_onlyAdds {w : World} {o : Obj} {n : Nat} {names : List Str} {mp : Str} {data : Bytes} (hg : GapFree o.inv n)
    (hmp : mp ≠ []) : OnlyAdds o (addReader w o names mp data).obj := by
  unfold addReader
  simp only
  split
  · exact OnlyAdds.ofInv rfl rfl
  · rename_i cs hcs
    unfold withInv
    cases hf : addFile o.inv names mp cs with
    | error e => exact OnlyAdds.ofInv rfl rfl
    | ok i =>
      obtain ⟨h1, h2, h3⟩ := addFile_onlyAdds hg hmp hf
      exact ⟨addFile_headOnly hf, rfl, h1, h2, h3, fun n hn => step_wf (op := .add names mp cs) hn hf⟩

theorem copyFile_paths {inv inv' : Inv} {n : Nat} {dest d : Str} (hg : GapFree inv n) (h : copyFile inv dest d = .ok inv') :
    (∀ q, HasPath inv inv.head q → HasPath inv' inv.head q) ∧ HasFile inv' inv.head dest d ∧
      inv'.manifest = inv.manifest := by
  have hh := copyFile_headOnly h
  obtain ⟨_, s, hs, ⟨hd, he⟩ | ⟨_, he⟩⟩ := copyFile_ok h
  · subst he
    refine ⟨fun _ h => h, ?_, rfl⟩
    rw [hasFile_head hg.nodup hs]
    exact mgetD_mem hd
  · have hs' : headState inv' = .ok (stAppend s d dest) := by rw [he]; exact headState_set_modified hs _ _
    have hf : ∀ q e, HasFile inv' inv.head q e ↔ InSt s q e ∨ (q = dest ∧ e = d) := by
      intro q e
      rw [← hh.head, hasFile_head (hh.nodup hg.nodup) hs', inSt_stAppend]
    refine ⟨?_, (hf _ _).2 (Or.inr ⟨rfl, rfl⟩), by rw [he]; simp⟩
    rintro q ⟨e, hq⟩
    exact ⟨e, (hf _ _).2 (Or.inl ((hasFile_head hg.nodup hs).1 hq))⟩

theorem copy_onlyAdds {o : Obj} {n : Nat} {dest d : Str} (hw : WF o.inv n) :
    OnlyAdds o (withInv o (copyFile o.inv dest d)).obj := by
  unfold withInv
  cases hf : copyFile o.inv dest d with
  | error e => exact OnlyAdds.refl o
  | ok i =>
    obtain ⟨h1, _, h3⟩ := copyFile_paths hw.1 hf
    exact ⟨copyFile_headOnly hf, rfl, h1, by rw [h3]; exact fun _ h => h,
      fun hr => step_refsResolve (op := .copy dest d) hw hr trivial hf,
      fun n hn => step_wf (op := .copy dest d) hn hf⟩


theorem objAddReader_onlyAdds {w : World} {o : Obj} {n : Nat} {files : List Str} {area : Str} {data : Bytes}
    (hg : GapFree o.inv n) : OnlyAdds o (objAddReader w o files area data).obj := by
  unfold objAddReader
  split
  · exact OnlyAdds.refl o
  · split
    · exact OnlyAdds.refl o
    · split
      · exact OnlyAdds.refl o
      · rename_i names mp hb
        obtain ⟨_, i, _, rfl⟩ := buildNames_ok hb
        exact addReader_onlyAdds hg (C13_content_path_ne_nil _ _)

theorem objAdd_onlyAdds {w : World} {o : Obj} {n : Nat} {path area : Str} {data : Bytes} {c : Bool} (hw : WF o.inv n) :
    OnlyAdds o (objAdd w o path area data c).obj := by
  unfold objAdd
  split
  · exact OnlyAdds.refl o
  · split
    · exact OnlyAdds.refl o
    · rename_i names mp hb
      obtain ⟨_, i, _, rfl⟩ := buildNames_ok hb
      have h0 : OnlyAdds o { o with updateFiles := o.updateFiles ++ [names.headD []] } := OnlyAdds.ofInv rfl rfl
      simp only
      split
      · split
        · exact h0
        · refine h0.trans ?_
          unfold addChecked
          split
          · exact OnlyAdds.refl _
          · exact OnlyAdds.refl _
          · split
            · exact copy_onlyAdds hw
            · exact addReader_onlyAdds (o := { o with updateFiles := o.updateFiles ++ [names.headD []] }) hw.1
                (C13_content_path_ne_nil _ _)
      · exact h0.trans (addReader_onlyAdds (o := { o with updateFiles := o.updateFiles ++ [names.headD []] }) hw.1
          (C13_content_path_ne_nil _ _))

theorem placeholder_onlyAdds {M : Type} {x : FsExt M} {o : Obj} {n : Nat} {h : Bytes → Str} {path area : Str}
    (hw : WF o.inv n) : OnlyAdds o (placeholder x o h path area).1.obj := by
  unfold placeholder
  simp only
  split
  · split
    · exact OnlyAdds.refl o
    · exact copy_onlyAdds hw
  · exact objAddReader_onlyAdds hw.1

theorem fsWrite_obj {M : Type} (s : RecSt (FsLine M)) (o : Obj) (l : FsLine M) : (fsWrite s o l).obj = o := by
  unfold fsWrite; split <;> rfl

theorem fsAfterFile_obj {M : Type} (x : FsExt M) (s : RecSt (FsLine M)) (o : Obj) (p a : Str) :
    (fsAfterFile x s o p a).obj = o := by
  unfold fsAfterFile
  split
  · rfl
  · split
    · rfl
    · exact fsWrite_obj _ _ _

theorem fsAfterDir_onlyAdds {M : Type} {x : FsExt M} {s : RecSt (FsLine M)} {o : Obj} {n : Nat} {path area : Str}
    (hw : WF o.inv n) : OnlyAdds o (fsAfterDir x s o path area).obj := by
  unfold fsAfterDir
  split
  · exact OnlyAdds.refl o
  · split
    · exact OnlyAdds.refl o
    · rename_i h hh
      split
      · exact OnlyAdds.refl o
      · split
        · exact OnlyAdds.refl o
        · have hp := placeholder_onlyAdds (x := x) (h := h) (path := path) (area := area) hw
          split
          · rename_i o' e he
            rw [he] at hp
            exact hp
          · rename_i o' he
            rw [he] at hp
            rw [fsWrite_obj]
            exact hp

theorem addEntry_onlyAdds {M : Type} {x : FsExt M} {c : Bool} {area : Str} {s : RecSt (FsLine M)} {o : Obj} {n : Nat}
    (hw : WF o.inv n) (e : SrcEntry) : OnlyAdds o (addEntry x c area s o e).obj := by
  cases e with
  | file p d =>
    have h := objAdd_onlyAdds (w := x.w) (path := p) (area := area) (data := d) (c := c) hw
    simp only [addEntry]
    split
    · rename_i o' e he
      rw [he] at h
      exact h
    · rename_i o' he
      rw [he] at h
      split
      · rw [fsAfterFile_obj]; exact h
      · exact h
  | dir p =>
    simp only [addEntry]
    split
    · exact OnlyAdds.refl o
    · split
      · exact OnlyAdds.refl o
      · exact fsAfterDir_onlyAdds hw

theorem addTree_onlyAdds {M : Type} {x : FsExt M} {c : Bool} {area : Str} {n : Nat} (es : List SrcEntry) :
    ∀ {s : RecSt (FsLine M)} {o : Obj}, WF o.inv n → OnlyAdds o (addTree x c area s o es).obj := by
  induction es with
  | nil => intro s o _; exact OnlyAdds.refl o
  | cons e es ih =>
    intro s o hw
    have h := addEntry_onlyAdds (x := x) (c := c) (area := area) (s := s) hw e
    rw [addTree]
    split
    · rename_i s' o' err he
      rw [he] at h
      exact h
    · rename_i s' o' he
      rw [he] at h
      exact h.trans (ih (h.wf n hw))

/-! ### The placeholder of a folder -/

/-- The digest found for a path in the versions is used by one of them. -/
theorem lastDigest_used {inv : Inv} {n : Nat} (hg : GapFree inv n) {p d : Str} (h : lastDigest inv p = .ok (some d)) :
    ∃ v, HasFile inv v p d := by
  rcases lastDigest_ok hg h with ⟨h, _⟩ | ⟨k, e, he, _, _, hk, _⟩
  · cases h
  · cases he
    unfold digestAt at hk
    obtain ⟨ver, hv, hk⟩ := Option.bind_eq_some_iff.1 hk
    obtain ⟨ps, h1, h2⟩ := digestOf_some hk
    exact ⟨_, ver, ps, mem_of_mget hv, h1, h2⟩

/-- The placeholder of a folder is in the head version after the hook, whether it is the first one of the object or
not. -/
theorem placeholder_present {M : Type} {x : FsExt M} {o : Obj} {n : Nat} {h : Bytes → Str} {path area : Str}
    (hw : WF o.inv n) (hr : RefsResolve o.inv) (hx : HexHash x.w) (hl : LowerHash x.w)
    (hh : x.w.hash o.inv.digestAlg = some h) (he : (placeholder x o h path area).1.err = none) :
    ∃ q, x.w.statePath (pathJoin [path, x.folders]) area = .ok q ∧
      HasFile (placeholder x o h path area).1.obj.inv o.inv.head q (h []) := by
  unfold placeholder at he ⊢
  simp only at he ⊢
  split at he
  · rename_i hm
    rw [if_pos hm]
    split at he
    · cases he
    · rename_i names mp hb
      try rw [hb]
      obtain ⟨hn, _⟩ := buildNames_ok hb
      obtain ⟨q, hq, hn⟩ := res_bind_eq_ok.1 hn
      cases hn
      refine ⟨q, hq, ?_⟩
      unfold withInv at he ⊢
      split at he
      · rename_i i hi
        simp only
        exact (copyFile_paths hw.1 hi).2.1
      · cases he
  · rename_i hm
    rw [if_neg hm]
    unfold objAddReader at he ⊢
    rw [if_neg (by simp)] at he ⊢
    split at he
    · cases he
    · rename_i hwr
      rw [if_neg hwr]
      split at he
      · cases he
      · rename_i names mp hb
        try rw [hb]
        obtain ⟨hn, i, _, hmp⟩ := buildNames_ok hb
        obtain ⟨q, hq, hn⟩ := res_bind_eq_ok.1 hn
        cases hn
        refine ⟨q, hq, ?_⟩
        unfold addReader at he ⊢
        simp only at he ⊢
        split at he
        · cases he
        · rename_i cs hcs
          try rw [hcs]
          unfold withInv at he ⊢
          split at he
          · rename_i j hj
            simp only
            obtain ⟨dig, hdig, hfold⟩ := addFile_ok hj
            obtain ⟨hf, hhf, hd⟩ := checksums_get hcs hdig
            rw [hh] at hhf
            cases hhf
            obtain ⟨f1, f2, f3, _, f5⟩ := addFixity_fold o.inv mp cs
            rw [List.reverse_singleton, List.foldlM_cons] at hfold
            obtain ⟨j', hj', hfold⟩ := res_bind_eq_ok.1 hfold
            cases hfold
            rw [hd, hl _ _ _ hh] at hj'
            have := (addName_paths (f5.gapFree hw.1) hj').2
            rw [f2] at this
            apply this
            obtain ⟨_, dup, _, _, hdup, _⟩ := addName_ok hj'
            rw [hdup]
            cases dup with
            | false => rfl
            | true =>
              obtain ⟨r, hr', hb'⟩ := (alreadyExists_ok (hx _ _ _ hh).1).1 hdup
              have hr0 := of_decide_eq_true hb'.symm
              rw [hr0] at hr'
              obtain ⟨v, ver, ps, hv, hps, _⟩ := lastDigest_used (f5.gapFree hw.1) hr'
              rw [f1] at hv
              obtain ⟨m, hm'⟩ := hr.1 v ver _ hv (mem_mkeys_of_mem hps)
              exact absurd (mget_isSome_iff.2 (mem_mkeys_of_mem hm')) hm
          · cases he

/-- a folder met while walking the source -/
theorem addEntry_dir {M : Type} {x : FsExt M} {c : Bool} {area : Str} {s : RecSt (FsLine M)} {o : Obj} {n : Nat} {path : Str}
    (hw : WF o.inv n) (hr : RefsResolve o.inv) (hx : HexHash x.w) (hl : LowerHash x.w) (hf : x.folders ≠ [])
    (he : (addEntry x c area s o (.dir path)).err = none) :
    ∃ q, x.w.statePath (pathJoin [path, x.folders]) area = .ok q ∧
      HasPath (addEntry x c area s o (.dir path)).obj.inv o.inv.head q := by
  simp only [addEntry] at he ⊢
  split at he
  · cases he
  · rename_i hwr
    rw [if_neg hwr]
    split at he
    · cases he
    · rename_i nm hb
      try rw [hb]
      try simp only
      unfold fsAfterDir at he ⊢
      rw [if_neg hf] at he ⊢
      split at he
      · cases he
      · rename_i h hh
        try rw [hh]
        try simp only
        split at he
        · cases he
        · rename_i m hm
          try rw [hm]
          try simp only
          split at he
          · cases he
          · rename_i q0 hq0
            try rw [hq0]
            try simp only
            split at he
            · cases he
            · rename_i o' ho'
              obtain ⟨q, hq, hp⟩ := placeholder_present (x := x) (path := path) (area := area) hw hr hx hl hh
                (by rw [ho'])
              rw [ho'] at hp
              rw [fsWrite_obj]
              exact ⟨q, hq, _, hp⟩

/-- all folders of the source -/
theorem addTree_dirs {M : Type} {x : FsExt M} {c : Bool} {area : Str} {n : Nat} (hx : HexHash x.w) (hl : LowerHash x.w)
    (hf : x.folders ≠ []) (es : List SrcEntry) :
    ∀ {s : RecSt (FsLine M)} {o : Obj}, WF o.inv n → RefsResolve o.inv → (addTree x c area s o es).err = none →
      ∀ path, .dir path ∈ es → ∃ q, x.w.statePath (pathJoin [path, x.folders]) area = .ok q ∧
        HasPath (addTree x c area s o es).obj.inv o.inv.head q := by
  induction es with
  | nil => intro s o _ _ _ p hp; cases hp
  | cons e es ih =>
    intro s o hw hr he path hp
    have h := addEntry_onlyAdds (x := x) (c := c) (area := area) (s := s) hw e
    have hd := fun (h : (addEntry x c area s o e).err = none) (h2 : e = .dir path) =>
      addEntry_dir (x := x) (c := c) (area := area) (s := s) (path := path) hw hr hx hl hf (by rw [← h2]; exact h)
    rw [addTree] at he ⊢
    split at he
    · cases he
    · rename_i s' o' he'
      rw [he'] at h hd
      simp only at h hd
      have ht := addTree_onlyAdds (x := x) (c := c) (area := area) es (s := s') (h.wf n hw)
      rcases List.mem_cons.1 hp with hp | hp
      · obtain ⟨q, hq, hq'⟩ := hd trivial hp.symm
        rw [hp, he'] at hq'
        refine ⟨q, hq, ?_⟩
        have := ht.paths q (by rw [h.inv.head]; exact hq')
        rw [h.inv.head] at this
        exact this
      · obtain ⟨q, hq, hq'⟩ := ih (h.wf n hw) (h.refs hr) he path hp
        rw [h.inv.head] at hq'
        exact ⟨q, hq, hq'⟩


/-! ### The end of the update -/

theorem writeJsonL_onlyAdds {w : World} {c : Compr} {exts : List PathExt} {folder : Str} {o : Obj} {name : Str} {b : Bytes}
    {cfg : MetaCfg} {n : Nat} (hg : GapFree o.inv n) : OnlyAdds o (writeJsonL w c exts folder o name b cfg).obj := by
  unfold writeJsonL
  split
  · exact OnlyAdds.refl o
  · split
    · exact OnlyAdds.refl o
    · split
      · exact objAddReader_onlyAdds hg
      · split
        · split
          · exact OnlyAdds.refl o
          · exact objAddReader_onlyAdds hg
        · split
          · exact OnlyAdds.ofInv rfl rfl
          · exact OnlyAdds.refl o

theorem writeJsonL_modified {w : World} {c : Compr} {exts : List PathExt} {folder : Str} {o : Obj} {name : Str} {b : Bytes}
    {cfg : MetaCfg} (hm : o.inv.modified = true) : (writeJsonL w c exts folder o name b cfg).obj.inv.modified = true := by
  have hr : ∀ fs a d, (objAddReader (withExts w exts) o fs a d).obj.inv.modified = true := by
    intro fs a d
    obtain ⟨ops, h1, _⟩ := (objAddReader_step (w := withExts w exts) (U := fun _ _ => True) (o := o) (files := fs)
      (area := a) (data := d) trivial).inv
    exact run_modified h1 hm
  unfold writeJsonL
  split
  · exact hm
  · split
    · exact hm
    · split
      · exact hr _ _ _
      · split
        · split
          · exact hm
          · exact hr _ _ _
        · split
          · exact hm
          · exact hm

theorem fsAfterUpdate_onlyAdds {M : Type} {x : FsExt M} {k : FsStore M} {s : RecSt (FsLine M)} {o : Obj} {n : Nat}
    (hg : GapFree o.inv n) : OnlyAdds o (fsAfterUpdate x k s o).obj ∧
      (o.inv.modified = true → (fsAfterUpdate x k s o).obj.inv.modified = true) := by
  unfold fsAfterUpdate
  split
  · exact ⟨OnlyAdds.refl o, fun h => h⟩
  · exact ⟨OnlyAdds.refl o, fun h => h⟩
  · exact ⟨writeJsonL_onlyAdds hg, fun h => writeJsonL_modified h⟩

/-- Without echo the end of the update loses no path either. -/
theorem fsEndUpdate_paths {M : Type} {x : FsExt M} {k : FsStore M} {s : RecSt (FsLine M)} {o : Obj} {n : Nat}
    (hg : GapFree o.inv n) (he : o.echo = false) (herr : (fsEndUpdate x k s o).err = none) :
    (fsEndUpdate x k s o).obj.inv.head = o.inv.head ∧
    ∀ q, HasPath o.inv o.inv.head q → HasPath (fsEndUpdate x k s o).obj.inv o.inv.head q := by
  unfold fsEndUpdate at herr ⊢
  split at herr
  · rename_i h
    rw [if_pos h]
    exact ⟨rfl, fun _ h => h⟩
  · rename_i h1
    rw [if_neg h1]
    split at herr
    · rename_i h
      rw [if_pos h]
      exact ⟨rfl, fun _ h => h⟩
    · rename_i hm
      rw [if_neg hm]
      rw [he] at herr ⊢
      simp only [Bool.false_eq_true, if_false, ok] at herr ⊢
      have hm : o.inv.modified = true := by simpa using hm
      have ha := fsAfterUpdate_onlyAdds (x := x) (k := k) (s := s) hg
      split at herr
      · cases herr
      · rename_i s2 o2 ho2
        rw [ho2] at ha
        have hm2 := ha.2 hm
        simp only at ha hm2 ⊢
        rw [show withInv o2 (clean o2.inv) = ok o2 by rw [clean_modified hm2]; rfl, andThen_ok] at herr ⊢
        rw [storeInventory_trace.1]
        exact ⟨ha.1.inv.head, ha.1.paths⟩

theorem startUpdate_ok {w : World} {inv : Inv} {v : VInfo} {e : Bool} {o : Obj}
    (h : startUpdate w ⟨inv, [], false, []⟩ v e [] = ⟨o, none⟩) :
    ∃ i, newVersion inv v.msg v.userName v.userAddress v.now = .ok i ∧ o = ⟨i, [], e, []⟩ := by
  unfold startUpdate withInv at h
  cases hi : newVersion inv v.msg v.userName v.userAddress v.now with
  | error er => simp only [hi] at h; cases h
  | ok i =>
    simp only [hi] at h
    rw [andThen_none rfl] at h
    cases h
    exact ⟨i, rfl, rfl⟩

/-- The full statement (false with echo): after an update with the setting `folders`, every folder of the source has its
placeholder in the version. -/
def C106_full : Prop :=
  ∀ (M : Type) (x : FsExt M) (k : FsStore M) (inv : Inv) (n : Nat) (v : VInfo) (echo checkDup : Bool) (area : Str)
    (es : List SrcEntry), WF inv n → RefsResolve inv → HexHash x.w → LowerHash x.w → x.folders ≠ [] →
    (fsUpdate x k inv v echo checkDup area es).err = none → ∀ path, .dir path ∈ es →
    ∃ q, x.w.statePath (pathJoin [path, x.folders]) area = .ok q ∧
      HasPath (fsUpdate x k inv v echo checkDup area es).obj.inv (fsUpdate x k inv v echo checkDup area es).obj.inv.head q

/-- **C106**, without echo: every folder of the source, also an empty one, has its placeholder in the version, however
many folders there are and whatever other files are added.  Missing: echo (`C106_full_fails_echo`). -/
theorem C106_folders_kept_partial {M : Type} {x : FsExt M} {k : FsStore M} {inv : Inv} {n : Nat} {v : VInfo}
    {checkDup : Bool} {area : Str} {es : List SrcEntry} (hw : WF inv n) (hr : RefsResolve inv) (hx : HexHash x.w)
    (hl : LowerHash x.w) (hf : x.folders ≠ []) (he : (fsUpdate x k inv v false checkDup area es).err = none) {path : Str}
    (hp : .dir path ∈ es) :
    ∃ q, x.w.statePath (pathJoin [path, x.folders]) area = .ok q ∧
      HasPath (fsUpdate x k inv v false checkDup area es).obj.inv
        (fsUpdate x k inv v false checkDup area es).obj.inv.head q := by
  unfold fsUpdate at he ⊢
  split at he
  · cases he
  · rename_i o ho
    obtain ⟨i, hi, rfl⟩ := startUpdate_ok ho
    have hw1 := newVersion_ok_gapFree hw.1 hw.2 hi
    have hr1 : RefsResolve i := step_refsResolve (op := .newVersion v.msg v.userName v.userAddress v.now) hw hr trivial hi
    split at he
    · cases he
    · rename_i s o' ho'
      have ha := addTree_onlyAdds (x := x) (c := checkDup) (area := area) es (s := recNew) (o := ⟨i, [], false, []⟩) hw1
      obtain ⟨q, hq, hq'⟩ := addTree_dirs (x := x) (c := checkDup) (area := area) hx hl hf es (s := recNew)
        (o := ⟨i, [], false, []⟩) hw1 hr1 (by rw [ho']) path hp
      rw [ho'] at ha hq'
      simp only at ha hq'
      obtain ⟨h1, h2⟩ := fsEndUpdate_paths (x := x) (k := k) (s := s) (ha.wf _ hw1).1 (by rw [ha.echo]) he
      refine ⟨q, hq, ?_⟩
      rw [h1]
      exact h2 q (by rw [ha.inv.head]; exact hq')


/-! ### Echo removes the placeholders -/

theorem placeholder_updateFiles {M : Type} {x : FsExt M} {o : Obj} {h : Bytes → Str} {path area : Str}
    (hm : (mget o.inv.manifest (h [])).isSome = true) :
    (placeholder x o h path area).1.obj.updateFiles = o.updateFiles := by
  unfold placeholder
  simp only
  rw [if_pos hm]
  split
  · rfl
  · exact withInv_updateFiles _ _

theorem addEntry_updateFiles {M : Type} {x : FsExt M} {c : Bool} {area : Str} {s : RecSt (FsLine M)} {o : Obj} {h : Bytes → Str}
    (hh : x.w.hash o.inv.digestAlg = some h) (hm : (mget o.inv.manifest (h [])).isSome = true) (e : SrcEntry) {q : Str}
    (hq : q ∈ (addEntry x c area s o e).obj.updateFiles) :
    q ∈ o.updateFiles ∨ ∃ p d, e = .file p d ∧ x.w.statePath p area = .ok q := by
  cases e with
  | file p d =>
    have hu : q ∈ (runCall x.w o (.add p area d c)).obj.updateFiles := by
      show q ∈ (objAdd x.w o p area d c).obj.updateFiles
      simp only [addEntry] at hq
      split at hq
      · rename_i o' e he
        rw [he]; exact hq
      · rename_i o' he
        rw [he]
        split at hq
        · rw [fsAfterFile_obj] at hq; exact hq
        · exact hq
    rcases runCall_updateFiles hu with h | h
    · exact Or.inl h
    · exact Or.inr ⟨p, d, rfl, h⟩
  | dir p =>
    left
    simp only [addEntry] at hq
    split at hq
    · exact hq
    · split at hq
      · exact hq
      · unfold fsAfterDir at hq
        split at hq
        · exact hq
        · rw [hh] at hq
          simp only at hq
          have hp := placeholder_updateFiles (x := x) (path := p) (area := area) hm
          split at hq
          · exact hq
          · split at hq
            · exact hq
            · split at hq
              · rename_i o' e he
                rw [he] at hp
                rw [← hp]; exact hq
              · rename_i o' he
                rw [he] at hp
                rw [fsWrite_obj] at hq
                rw [← hp]; exact hq

theorem addTree_updateFiles {M : Type} {x : FsExt M} {c : Bool} {area : Str} {n : Nat} {h : Bytes → Str} {q : Str}
    (es : List SrcEntry) : ∀ {s : RecSt (FsLine M)} {o : Obj}, WF o.inv n → x.w.hash o.inv.digestAlg = some h →
      (mget o.inv.manifest (h [])).isSome = true → q ∈ (addTree x c area s o es).obj.updateFiles →
      q ∈ o.updateFiles ∨ ∃ p d, .file p d ∈ es ∧ x.w.statePath p area = .ok q := by
  induction es with
  | nil => intro s o _ _ _ hq; exact Or.inl hq
  | cons e es ih =>
    intro s o hw hh hm hq
    have ha := addEntry_onlyAdds (x := x) (c := c) (area := area) (s := s) hw e
    have hu := fun (h' : q ∈ (addEntry x c area s o e).obj.updateFiles) => addEntry_updateFiles hh hm e h'
    have key : q ∈ (addEntry x c area s o e).obj.updateFiles →
        q ∈ o.updateFiles ∨ ∃ p d, .file p d ∈ e :: es ∧ x.w.statePath p area = .ok q := by
      intro h'
      rcases hu h' with h | ⟨p, d, rfl, h⟩
      · exact Or.inl h
      · exact Or.inr ⟨p, d, by simp, h⟩
    rw [addTree] at hq
    split at hq
    · rename_i s' o' err he
      exact key (by rw [he]; exact hq)
    · rename_i s' o' he
      rw [he] at ha key
      rcases ih (ha.wf n hw) (by rw [ha.inv.alg]; exact hh)
        (mget_isSome_iff.2 (ha.man _ (mget_isSome_iff.1 hm))) hq with h | ⟨p, d, h1, h2⟩
      · exact key h
      · exact Or.inr ⟨p, d, List.mem_cons_of_mem _ h1, h2⟩

/-- with storage type `extension` the records do not touch the inventory -/
theorem fsAfterUpdate_extension {M : Type} {x : FsExt M} {k : FsStore M} {s : RecSt (FsLine M)} {o : Obj}
    (hk : toLower k.cfg.storageType = "extension".toList) : (fsAfterUpdate x k s o).obj.inv = o.inv := by
  unfold fsAfterUpdate
  split
  · rfl
  · rfl
  · simp only
    unfold writeJsonL
    rw [hk]
    split
    · rfl
    · split
      · rfl
      · rw [if_neg (by decide), if_neg (by decide), if_pos rfl]
        rfl

/-- With echo the end of the update keeps what was submitted only. -/
theorem fsEndUpdate_echo {M : Type} {x : FsExt M} {k : FsStore M} {s : RecSt (FsLine M)} {o : Obj} {n : Nat} {base : Str}
    (hg : GapFree o.inv n) (hn : 0 < n) (he : o.echo = true) (hb : x.w.statePath ".".toList [] = .ok base)
    (hk : toLower k.cfg.storageType = "extension".toList) (herr : (fsEndUpdate x k s o).err = none)
    (hm : (fsEndUpdate x k s o).obj.inv.modified = true) :
    (fsEndUpdate x k s o).obj.inv.head = o.inv.head ∧ ∀ q, HasPath (fsEndUpdate x k s o).obj.inv o.inv.head q →
      (base = ".".toList ∨ base <+: q) → o.inv.writeable = true → q ∈ o.updateFiles := by
  unfold fsEndUpdate at herr hm ⊢
  split at herr
  · rename_i h
    rw [if_pos h]
    exact ⟨rfl, fun _ _ _ h' => by rw [h] at h'; cases h'⟩
  · rename_i h1
    rw [if_neg h1] at hm ⊢
    split at herr
    · rename_i h
      rw [if_pos h] at hm
      rw [h] at hm
      cases hm
    · rename_i h2
      rw [if_neg h2] at hm ⊢
      obtain ⟨i, hi, hhead, hmir, _⟩ := C17_mirror_exact hg hn o.updateFiles base
      have hecho : objEcho x.w o = ok { o with updateFiles := slicesCompact (sortStr o.updateFiles), inv := i } := by
        unfold objEcho
        rw [hb]
        simp only [hi, withInv, ok]
      have hmi : i.modified = true :=
        run_modified (ops := [.echo (slicesCompact (sortStr o.updateFiles)) (if base = ".".toList then [] else base)])
          (by rw [run_single]; exact hi) (by simpa using h2)
      have e0 : (if o.echo = true then objEcho x.w o else ok o) =
          ok { o with updateFiles := slicesCompact (sortStr o.updateFiles), inv := i } := by rw [if_pos he, hecho]
      rw [e0] at hm ⊢
      simp only [he, hecho] at herr
      simp only [ok] at herr hm ⊢
      rw [he] at hm ⊢
      have ha := fsAfterUpdate_extension (x := x) (s := s)
        (o := { o with updateFiles := slicesCompact (sortStr o.updateFiles), inv := i, echo := true }) hk
      split at herr
      · cases herr
      · rename_i s2 o2 ho2
        rw [ho2] at ha
        have hi2 : o2.inv = i := ha
        rw [show withInv o2 (clean o2.inv) = ok o2 by rw [clean_modified (by rw [hi2]; exact hmi)]; rfl, andThen_ok]
        rw [storeInventory_trace.1, hi2]
        refine ⟨hhead, ?_⟩
        rintro q ⟨d, hd⟩ hbase _
        exact ((hmir q d).1 hd).2 hbase

/-- **C106 fails with echo**, for every object that has an empty file already — every object after the first update with
`folders`: the placeholders are added as copies that do not count as submitted, and the mirroring at the end removes each
of them that is not the name of a file of the source. -/
theorem C106_full_fails_echo {M : Type} {x : FsExt M} {k : FsStore M} {inv : Inv} {n : Nat} {v : VInfo} {checkDup : Bool}
    {area base q : Str} {es : List SrcEntry} {h : Bytes → Str} (hw : WF inv n)
    (hh : x.w.hash inv.digestAlg = some h) (hm : (mget inv.manifest (h [])).isSome = true)
    (hb : x.w.statePath ".".toList [] = .ok base) (hk : toLower k.cfg.storageType = "extension".toList)
    (he : (fsUpdate x k inv v true checkDup area es).err = none)
    (hmod : (fsUpdate x k inv v true checkDup area es).obj.inv.modified = true) (hq : base = ".".toList ∨ base <+: q)
    (hno : ∀ p d, .file p d ∈ es → x.w.statePath p area ≠ .ok q) :
    ¬ HasPath (fsUpdate x k inv v true checkDup area es).obj.inv
        (fsUpdate x k inv v true checkDup area es).obj.inv.head q := by
  intro hp
  unfold fsUpdate at he hmod hp
  split at he
  · cases he
  · rename_i o ho
    obtain ⟨i, hi, rfl⟩ := startUpdate_ok ho
    have hw1 := newVersion_ok_gapFree hw.1 hw.2 hi
    have hf := newVersion_frame hi
    rw [ho] at hmod hp
    simp only at hmod hp
    split at he
    · cases he
    · rename_i s o' ho'
      rw [ho'] at hmod hp
      simp only at hmod hp
      have ha := addTree_onlyAdds (x := x) (c := checkDup) (area := area) es (s := recNew) (o := ⟨i, [], true, []⟩) hw1
      have hu := addTree_updateFiles (x := x) (c := checkDup) (area := area) (h := h) (q := q) es (s := recNew)
        (o := ⟨i, [], true, []⟩) hw1 (by rw [show (Obj.mk i [] true []).inv = i from rfl, hf.2.2.1]; exact hh)
        (by rw [show (Obj.mk i [] true []).inv = i from rfl, hf.2.2.2.2.2.1]; exact hm)
      rw [ho'] at ha hu
      simp only at ha hu
      obtain ⟨e1, e2⟩ := fsEndUpdate_echo (ha.wf _ hw1).1 (Nat.succ_pos n) (by rw [ha.echo]) hb hk he hmod
      rw [e1] at hp
      rcases hu (e2 q hp hq (by rw [ha.inv.wr]; exact hf.2.2.2.1)) with h | ⟨p, d, h1, h2⟩
      · cases h
      · exact hno p d h1 h2


/-! ### Folders: examples -/

theorem exWorld_lower : LowerHash exWorld := by
  intro a h b hh
  have hh : (if a = "sha512".toList then some (fun b : Bytes => 'a' :: List.replicate b.length '0') else none) =
      some h := hh
  split at hh
  · cases hh
    unfold toLower
    rw [List.map_cons, List.map_replicate]
    rfl
  · cases hh

def exFs : FsExt Nat := ⟨exWorld, ".keep".toList, fun p => .ok p.length⟩

def exFsStore : FsStore Nat := ⟨exCompr, [], "NNNN-filesystem".toList, ⟨"none".toList, "extension".toList, "m".toList⟩,
  fun ls => 1 :: ls.map (fun l => l.info.toUInt8), fun b => .ok (b.map (fun i => ⟨[], [], i.toNat⟩))⟩

/-- two empty folders and a new file -/
def exTree : List SrcEntry := [.dir "x".toList, .dir "y".toList, .file "z".toList [7]]

example : (fsUpdate exFs exFsStore exInv ⟨[], [], [], []⟩ false true [] exTree).err = none := by decide

/-- the two folders are kept -/
example : ∃ q, exFs.w.statePath (pathJoin ["y".toList, ".keep".toList]) [] = .ok q ∧
    HasPath (fsUpdate exFs exFsStore exInv ⟨[], [], [], []⟩ false true [] exTree).obj.inv
      (fsUpdate exFs exFsStore exInv ⟨[], [], [], []⟩ false true [] exTree).obj.inv.head q :=
  C106_folders_kept_partial (x := exFs) exInv_wf2 exInv_refs exWorld_hex exWorld_lower (by decide) (by decide)
    (by simp [exTree])

/-- an object that was updated with `folders` before -/
def exFsInv : Inv := (fsUpdate exFs exFsStore exInv ⟨[], [], [], []⟩ true true [] exTree).obj.inv

theorem exFsInv_wf : WF exFsInv 3 := by
  refine ⟨⟨by decide, by decide⟩, ?_⟩
  intro v ver hv
  have : ∀ e ∈ exFsInv.versions, (mkeys e.2.state).Nodup := by decide
  exact this _ hv

example : (mget exFsInv.manifest ("a".toList)).isSome = true ∧
    (fsUpdate exFs exFsStore exFsInv ⟨[], [], [], []⟩ true true [] [.dir "x".toList, .file "z".toList [8, 8]]).err = none ∧
    (fsUpdate exFs exFsStore exFsInv ⟨[], [], [], []⟩ true true []
      [.dir "x".toList, .file "z".toList [8, 8]]).obj.inv.modified = true := by decide

theorem C106_full_fails : ¬ C106_full := by
  intro hf
  obtain ⟨q, hq, hp⟩ := hf Nat exFs exFsStore exInv 2 ⟨[], [], [], []⟩ true true [] exTree exInv_wf2 exInv_refs exWorld_hex
    exWorld_lower (by decide) (by decide) "y".toList (by simp [exTree])
  have hq' : q = "y/.keep".toList := by
    have : exFs.w.statePath (pathJoin ["y".toList, exFs.folders]) [] = .ok "y/.keep".toList := by decide
    rw [this] at hq
    cases hq
    rfl
  subst hq'
  obtain ⟨d, hd⟩ := hp
  have hv : ∀ e ∈ (fsUpdate exFs exFsStore exInv ⟨[], [], [], []⟩ true true [] exTree).obj.inv.versions,
      ∀ s ∈ e.2.state, "y/.keep".toList ∉ s.2 := by decide
  obtain ⟨ver, ps, h1, h2, h3⟩ := hd
  exact hv _ h1 _ h2 h3

/-! ### C107: what is reported -/

/-- the lines recorded for a version -/
def recLines {L : Type} (s : RecSt L) (v : Str) : List L := (mget s.buffer v).getD []

theorem recBegin_lines {L : Type} (s : RecSt L) (head v : Str) : recLines (recBegin s head) v = recLines s v := by
  have hb : recLines (recBegin s head) v =
      (mget (if (mget s.buffer head).isSome then s.buffer else mset s.buffer head []) v).getD [] := by
    unfold recBegin recLines
    simp only
    split <;> rfl
  rw [hb]
  unfold recLines
  split
  · rfl
  · rename_i hn
    by_cases hv : v = head
    · subst hv
      rw [mget_mset_self]
      cases h : mget s.buffer v with
      | none => rfl
      | some l => rw [h] at hn; exact absurd rfl hn
    · rw [mget_mset_ne _ (fun h => hv h.symm)]

theorem recBegin_head {L : Type} (s : RecSt L) (head : Str) : (recBegin s head).currentHead = head := by
  unfold recBegin
  simp only
  split
  · rename_i h; exact h
  · rfl

theorem recWrite_lines {L : Type} {s s' : RecSt L} {l : L} (h : recWrite s l = some s') :
    recLines s' s.currentHead = recLines s s.currentHead ++ [l] ∧
    (∀ v, v ≠ s.currentHead → recLines s' v = recLines s v) ∧ s'.currentHead = s.currentHead ∧ s'.writer = s.writer ∧
    s.writer = some true := by
  unfold recWrite at h
  split at h
  · rename_i hw
    cases h
    refine ⟨?_, ?_, rfl, rfl, hw⟩
    · unfold recLines; simp only; rw [mget_mset_self]; rfl
    · intro v hv; unfold recLines; simp only; rw [mget_mset_ne _ (fun h => hv h.symm)]
  · cases h

/-- a recorded line is there afterwards, and no other line is lost -/
theorem fsWrite_lines {M : Type} {s : RecSt (FsLine M)} {o : Obj} {l : FsLine M} {head : Str}
    (h : (fsWrite (recBegin s head) o l).err = none) :
    recLines (fsWrite (recBegin s head) o l).st head = recLines s head ++ [l] := by
  unfold fsWrite at h ⊢
  split at h
  · cases h
  · rename_i s' hs'
    have := (recWrite_lines hs').1
    rw [recBegin_head, recBegin_lines] at this
    exact this

theorem fsWrite_mono {M : Type} (s : RecSt (FsLine M)) (o : Obj) (l : FsLine M) (head v : Str) {x : FsLine M}
    (hx : x ∈ recLines s v) : x ∈ recLines (fsWrite (recBegin s head) o l).st v := by
  unfold fsWrite
  split
  · rw [recBegin_lines]; exact hx
  · rename_i s' hs'
    obtain ⟨h1, h2, _⟩ := recWrite_lines hs'
    rw [recBegin_head] at h1 h2
    by_cases hv : v = head
    · subst hv; rw [h1, recBegin_lines]; exact List.mem_append_left _ hx
    · rw [h2 v hv, recBegin_lines]; exact hx

theorem fsAfterFile_mono {M : Type} (x : FsExt M) (s : RecSt (FsLine M)) (o : Obj) (p a v : Str) {l : FsLine M}
    (hl : l ∈ recLines s v) : l ∈ recLines (fsAfterFile x s o p a).st v := by
  unfold fsAfterFile
  split
  · rw [recBegin_lines]; exact hl
  · split
    · rw [recBegin_lines]; exact hl
    · exact fsWrite_mono _ _ _ _ _ hl

theorem addEntry_mono {M : Type} (x : FsExt M) (c : Bool) (area : Str) (s : RecSt (FsLine M)) (o : Obj) (e : SrcEntry) (v : Str)
    {l : FsLine M} (hl : l ∈ recLines s v) : l ∈ recLines (addEntry x c area s o e).st v := by
  cases e with
  | file p d =>
    simp only [addEntry]
    split
    · exact hl
    · split
      · exact fsAfterFile_mono _ _ _ _ _ _ hl
      · exact hl
  | dir p =>
    simp only [addEntry]
    split
    · exact hl
    · split
      · exact hl
      · unfold fsAfterDir
        split
        · exact hl
        · split
          · exact hl
          · split
            · rw [recBegin_lines]; exact hl
            · split
              · rw [recBegin_lines]; exact hl
              · split
                · rw [recBegin_lines]; exact hl
                · exact fsWrite_mono _ _ _ _ _ hl

theorem addTree_mono {M : Type} (x : FsExt M) (c : Bool) (area : Str) (es : List SrcEntry) (v : Str) {l : FsLine M} :
    ∀ (s : RecSt (FsLine M)) (o : Obj), l ∈ recLines s v → l ∈ recLines (addTree x c area s o es).st v := by
  induction es with
  | nil => intro s o h; exact h
  | cons e es ih =>
    intro s o h
    have he := addEntry_mono x c area s o e v h
    rw [addTree]
    split
    · rename_i s' o' err h'
      rw [h'] at he; exact he
    · rename_i s' o' h'
      rw [h'] at he; exact ih s' o' he

/-- a file that is stored -/
theorem addEntry_file {M : Type} {x : FsExt M} {c : Bool} {area : Str} {s : RecSt (FsLine M)} {o : Obj} {n : Nat} {p : Str}
    {d : Bytes} (hw : WF o.inv n) (hs : storesAnew x.w o p area d c = true)
    (he : (addEntry x c area s o (.file p d)).err = none) :
    ∃ q m, x.w.statePath p area = .ok q ∧ x.stat p = .ok m ∧
      (⟨q, o.inv.head, m⟩ : FsLine M) ∈ recLines (addEntry x c area s o (.file p d)).st o.inv.head := by
  have ha := objAdd_onlyAdds (w := x.w) (path := p) (area := area) (data := d) (c := c) hw
  simp only [addEntry] at he ⊢
  split at he
  · cases he
  · rename_i o' ho'
    rw [ho'] at ha
    rw [if_pos hs] at he ⊢
    unfold fsAfterFile at he ⊢
    split at he
    · cases he
    · rename_i m hm
      split at he
      · cases he
      · rename_i q hq
        refine ⟨q, m, hq, hm, ?_⟩
        have hh : o'.inv.head = o.inv.head := ha.inv.head
        have := fsWrite_lines he
        rw [hh] at this ⊢
        rw [this]
        simp

/-- **the records of a version**: without the check for duplicates, each file added has its line -/
theorem addTree_files {M : Type} {x : FsExt M} {area : Str} {n : Nat} (es : List SrcEntry) :
    ∀ {s : RecSt (FsLine M)} {o : Obj}, WF o.inv n → (addTree x false area s o es).err = none → ∀ p d, .file p d ∈ es →
      ∃ q m, x.w.statePath p area = .ok q ∧ x.stat p = .ok m ∧
        (⟨q, o.inv.head, m⟩ : FsLine M) ∈ recLines (addTree x false area s o es).st o.inv.head := by
  induction es with
  | nil => intro s o _ _ p d hp; cases hp
  | cons e es ih =>
    intro s o hw he p d hp
    have ha := addEntry_onlyAdds (x := x) (c := false) (area := area) (s := s) hw e
    have hf := fun (h2 : e = .file p d) (h : (addEntry x false area s o e).err = none) =>
      addEntry_file (x := x) (c := false) (area := area) (s := s) (p := p) (d := d) hw (by simp [storesAnew])
        (by rw [← h2]; exact h)
    rw [addTree] at he ⊢
    split at he
    · cases he
    · rename_i s' o' he'
      rw [he'] at ha
      have hh : o'.inv.head = o.inv.head := ha.inv.head
      rcases List.mem_cons.1 hp with hp | hp
      · obtain ⟨q, m, h1, h2, h3⟩ := hf hp.symm (by rw [he'])
        rw [hp, he'] at h3
        exact ⟨q, m, h1, h2, addTree_mono x false area es _ s' o' h3⟩
      · obtain ⟨q, m, h1, h2, h3⟩ := ih (ha.wf n hw) he p d hp
        rw [hh] at h3
        exact ⟨q, m, h1, h2, h3⟩

theorem recEnd_buffer {L : Type} {s s' : RecSt L} {head : Str} {r : Option (List L)} (h : recEnd s head = .ok (s', r)) :
    s'.buffer = s.buffer := by
  unfold recEnd at h
  split at h
  · cases h; rfl
  · cases h
  · split at h
    · cases h
    · cases h; rfl

theorem fsEndUpdate_buffer {M : Type} {x : FsExt M} {k : FsStore M} {s : RecSt (FsLine M)} {o : Obj} :
    (fsEndUpdate x k s o).st.buffer = s.buffer := by
  have ha : ∀ o1, (fsAfterUpdate x k s o1).st.buffer = s.buffer := by
    intro o1
    unfold fsAfterUpdate
    split
    · rfl
    · rename_i h; exact recEnd_buffer h
    · rename_i h; exact recEnd_buffer h
  unfold fsEndUpdate
  split
  · rfl
  · split
    · rfl
    · split
      · rfl
      · rename_i o1 _
        have := ha o1
        split
        · rename_i h; rw [h] at this; exact this
        · rename_i h; rw [h] at this; exact this

/-- The lines of version `v` the extension has: of this process, or read from the object. -/
def RecordsOf {M : Type} (k : FsStore M) (s : RecSt (FsLine M)) (inv : Inv) (fs : FS) (v : Str) (ls : List (FsLine M)) : Prop :=
  mget s.buffer v = some ls ∨ (mget s.buffer v = none ∧
    ∃ b, readJsonL k.c k.exts k.folder inv fs "filesystem".toList v k.cfg = .ok b ∧ k.dec b = .ok ls)

theorem fsMatch_mem {M : Type} {inv : Inv} (hn : (mkeys inv.versions).Nodup) {v : Str} {ls : List (FsLine M)}
    {r : List (Str × FsLine M)} (h : fsMatch inv v ls = .ok r) {d : Str} {l : FsLine M} :
    (d, l) ∈ r ↔ l ∈ ls ∧ HasFile inv v l.path d := by
  unfold fsMatch at h
  split at h
  · cases h
  · rename_i ver hv
    split at h
    · cases h
    · cases h
      rw [hasFile_iff hn, hv]
      simp only [Option.some.injEq, exists_eq_left', List.mem_flatMap, List.mem_map, List.mem_filter, decide_eq_true_eq]
      constructor
      · rintro ⟨e, he, l', ⟨h1, h2⟩, h3⟩
        cases h3
        exact ⟨h1, e.2, he, h2⟩
      · rintro ⟨h1, ps, h2, h3⟩
        exact ⟨(d, ps), h2, l, ⟨h1, h3⟩, rfl⟩

theorem mapM_res {α β : Type} {f : α → Res β} {l : List α} {r : List β} (h : l.mapM f = .ok r) {b : β} :
    b ∈ r ↔ ∃ a ∈ l, f a = .ok b := by
  induction l generalizing r with
  | nil => cases h; simp
  | cons a l ih =>
    rw [List.mapM_cons] at h
    obtain ⟨x, hx, h⟩ := res_bind_eq_ok.1 h
    obtain ⟨y, hy, h⟩ := res_bind_eq_ok.1 h
    cases h
    rw [List.mem_cons, ih hy]
    constructor
    · rintro (rfl | ⟨a', h1, h2⟩)
      · exact ⟨a, by simp, hx⟩
      · exact ⟨a', by simp [h1], h2⟩
    · rintro ⟨a', h1, h2⟩
      rcases List.mem_cons.1 h1 with rfl | h1
      · rw [hx] at h2; cases h2; exact Or.inl rfl
      · exact Or.inr ⟨a', h1, h2⟩

theorem mapM_ok_each {α β : Type} {f : α → Res β} {l : List α} {r : List β} (h : l.mapM f = .ok r) :
    ∀ a ∈ l, ∃ b, f a = .ok b := by
  induction l generalizing r with
  | nil => intro a ha; cases ha
  | cons a l ih =>
    rw [List.mapM_cons] at h
    obtain ⟨x, hx, h⟩ := res_bind_eq_ok.1 h
    obtain ⟨y, hy, h⟩ := res_bind_eq_ok.1 h
    intro a' ha'
    rcases List.mem_cons.1 ha' with rfl | ha'
    · exact ⟨x, hx⟩
    · exact ih hy a' ha'

/-- **C107, exactly what is reported**: a line is reported for a content iff it was recorded for a version in whose state
its path has that content. -/
theorem C107_reported_exact {M : Type} {k : FsStore M} {s : RecSt (FsLine M)} {inv : Inv} {fs : FS}
    {r : List (Str × FsLine M)} (hn : (mkeys inv.versions).Nodup) (h : fsMetadata k s inv fs = .ok r) {d : Str}
    {l : FsLine M} :
    (d, l) ∈ r ↔ ∃ v ∈ mkeys inv.versions, ∃ ls, RecordsOf k s inv fs v ls ∧ l ∈ ls ∧ HasFile inv v l.path d := by
  unfold fsMetadata at h
  obtain ⟨rs, hrs, h⟩ := res_bind_eq_ok.1 h
  cases h
  rw [List.mem_flatten]
  constructor
  · rintro ⟨x, hx, hm⟩
    obtain ⟨v, hv, hf⟩ := (mapM_res hrs).1 hx
    refine ⟨v, hv, ?_⟩
    split at hf
    · rename_i ls hb
      exact ⟨ls, Or.inl hb, (fsMatch_mem hn hf).1 hm⟩
    · rename_i hb
      split at hf
      · cases hf
      · cases hf; cases hm
      · rename_i b hrd
        obtain ⟨ls, hd, hf⟩ := res_bind_eq_ok.1 hf
        exact ⟨ls, Or.inr ⟨hb, b, hrd, hd⟩, (fsMatch_mem hn hf).1 hm⟩
  · rintro ⟨v, hv, ls, hrec, hl, hf⟩
    have hall : ∃ x ∈ rs, (fun v => match mget s.buffer v with
        | some ls => fsMatch inv v ls
        | none =>
          match readJsonL k.c k.exts k.folder inv fs "filesystem".toList v k.cfg with
          | .error (.panic e) => .error (.panic e)
          | .error (.error _) => .ok []
          | .ok b => k.dec b >>= fun ls => fsMatch inv v ls) v = .ok x := by
      obtain ⟨x, hx⟩ := mapM_ok_each hrs v hv
      exact ⟨x, (mapM_res hrs).2 ⟨v, hv, hx⟩, hx⟩
    obtain ⟨x, hx, hfx⟩ := hall
    refine ⟨x, hx, ?_⟩
    rcases hrec with hb | ⟨hb, b, hrd, hd⟩
    · simp only [hb] at hfx
      exact (fsMatch_mem hn hfx).2 ⟨hl, hf⟩
    · simp only [hb, hrd, hd, res_bind_ok] at hfx
      exact (fsMatch_mem hn hfx).2 ⟨hl, hf⟩

/-- The full statement (false): after an update that succeeds, the extension reports for each file of the source, and for
the placeholder of each folder, the metadata of that file or folder, under its path and content in the new version. -/
def C107_full : Prop :=
  ∀ (M : Type) (x : FsExt M) (k : FsStore M) (inv : Inv) (n : Nat) (v : VInfo) (echo checkDup : Bool) (area : Str)
    (es : List SrcEntry) (fs : FS) (r : List (Str × FsLine M)), WF inv n →
    (fsUpdate x k inv v echo checkDup area es).err = none →
    fsMetadata k (fsUpdate x k inv v echo checkDup area es).st (fsUpdate x k inv v echo checkDup area es).obj.inv fs = .ok r →
    (∀ p d q dg, .file p d ∈ es → x.w.statePath p area = .ok q →
      HasFile (fsUpdate x k inv v echo checkDup area es).obj.inv
        (fsUpdate x k inv v echo checkDup area es).obj.inv.head q dg →
      ∃ m, x.stat p = .ok m ∧ (dg, ⟨q, (fsUpdate x k inv v echo checkDup area es).obj.inv.head, m⟩) ∈ r) ∧
    (x.folders ≠ [] → ∀ p q dg, .dir p ∈ es → x.w.statePath (pathJoin [p, x.folders]) area = .ok q →
      HasFile (fsUpdate x k inv v echo checkDup area es).obj.inv
        (fsUpdate x k inv v echo checkDup area es).obj.inv.head q dg →
      ∃ m, x.stat p = .ok m ∧ (dg, ⟨q, (fsUpdate x k inv v echo checkDup area es).obj.inv.head, m⟩) ∈ r)

theorem fsEndUpdate_head {M : Type} {x : FsExt M} {k : FsStore M} {s : RecSt (FsLine M)} {o : Obj} {n : Nat}
    (hg : GapFree o.inv n) (hn : 0 < n) (herr : (fsEndUpdate x k s o).err = none) :
    (fsEndUpdate x k s o).obj.inv.head = o.inv.head ∧ (mkeys (fsEndUpdate x k s o).obj.inv.versions).Nodup ∧
      o.inv.head ∈ mkeys (fsEndUpdate x k s o).obj.inv.versions := by
  have h0 : o.inv.head ∈ mkeys o.inv.versions := hg.head_mem hn
  unfold fsEndUpdate at herr ⊢
  split at herr
  · rename_i h
    rw [if_pos h]
    exact ⟨rfl, hg.nodup, h0⟩
  · rename_i h1
    rw [if_neg h1]
    split at herr
    · rename_i h
      rw [if_pos h]
      exact ⟨rfl, hg.nodup, h0⟩
    · rename_i hm
      rw [if_neg hm]
      have hm : o.inv.modified = true := by simpa using hm
      have he : HeadOnly o.inv (if o.echo then objEcho x.w o else ok o).obj.inv ∧
          (if o.echo then objEcho x.w o else ok o).obj.inv.modified = true := by
        obtain ⟨ops, h1, _⟩ := (echoIf_step (w := x.w) (U := fun _ _ => True) (o := o)).inv
        exact ⟨(echoIf_step (w := x.w) (U := fun _ _ => True) (o := o)).headOnly, run_modified h1 hm⟩
      split at herr
      · cases herr
      · rename_i o1 ho1
        rw [ho1] at he
        have ha := fsAfterUpdate_onlyAdds (x := x) (k := k) (s := s) (he.1.gapFree hg)
        simp only at ha he ⊢
        split at herr
        · cases herr
        · rename_i s2 o2 ho2
          rw [ho2] at ha
          have hm2 := ha.2 he.2
          have hh := he.1.trans ha.1.inv
          rw [show withInv o2 (clean o2.inv) = ok o2 by rw [clean_modified hm2]; rfl, andThen_ok]
          rw [storeInventory_trace.1]
          exact ⟨hh.head, hh.nodup hg.nodup, by rw [hh.keys]; exact h0⟩

/-- **C107** for the files of an update without the check for duplicates: the metadata of each file of the source is
reported, under the path it has in the version and every content the version has for that path.  Missing: updates with that
check (`C107_full_fails_known`) and folders (`C107_full_fails_folder`). -/
theorem C107_files_reported_partial {M : Type} {x : FsExt M} {k : FsStore M} {inv : Inv} {n : Nat} {v : VInfo} {echo : Bool}
    {area : Str} {es : List SrcEntry} {fs : FS} {r : List (Str × FsLine M)} (hw : WF inv n)
    (he : (fsUpdate x k inv v echo false area es).err = none)
    (hr : fsMetadata k (fsUpdate x k inv v echo false area es).st (fsUpdate x k inv v echo false area es).obj.inv fs = .ok r)
    {p q dg : Str} {d : Bytes} (hp : .file p d ∈ es) (hq : x.w.statePath p area = .ok q)
    (hf : HasFile (fsUpdate x k inv v echo false area es).obj.inv (fsUpdate x k inv v echo false area es).obj.inv.head q dg) :
    ∃ m, x.stat p = .ok m ∧ (dg, ⟨q, (fsUpdate x k inv v echo false area es).obj.inv.head, m⟩) ∈ r := by
  unfold fsUpdate at he hr hf ⊢
  split at he
  · cases he
  · rename_i o ho
    obtain ⟨i, hi, rfl⟩ := startUpdate_ok ho
    have hw1 := newVersion_ok_gapFree hw.1 hw.2 hi
    rw [ho] at hr hf
    simp only at hr hf
    split at he
    · cases he
    · rename_i s o' ho'
      rw [ho'] at hr hf
      simp only at hr hf
      have ha := addTree_onlyAdds (x := x) (c := false) (area := area) es (s := recNew) (o := ⟨i, [], echo, []⟩) hw1
      obtain ⟨q', m, h1, h2, h3⟩ := addTree_files (x := x) (area := area) es (s := recNew)
        (o := ⟨i, [], echo, []⟩) hw1 (by rw [ho']) p d hp
      rw [ho'] at ha h3
      simp only at ha h3
      rw [hq] at h1
      cases h1
      obtain ⟨e1, e2, e3⟩ := fsEndUpdate_head (ha.wf _ hw1).1 (Nat.succ_pos n) he
      rw [e1] at hf ⊢
      have hh : o'.inv.head = i.head := ha.inv.head
      refine ⟨m, h2, ?_⟩
      rw [C107_reported_exact e2 hr]
      have hl : recLines s o'.inv.head ≠ [] := by
        rw [hh]; intro h; rw [h] at h3; cases h3
      unfold recLines at h3 hl
      obtain ⟨ls, hls⟩ : ∃ ls, mget s.buffer o'.inv.head = some ls := by
        cases hb : mget s.buffer o'.inv.head with
        | none => rw [hb] at hl; exact absurd rfl hl
        | some ls => exact ⟨ls, rfl⟩
      refine ⟨o'.inv.head, e3, ls, Or.inl (by rw [fsEndUpdate_buffer]; exact hls), ?_, hf⟩
      rw [← hh, hls] at h3
      exact h3

theorem withInv_trace (o : Obj) (r : Res Inv) : (withInv o r).obj.trace = o.trace := by
  unfold withInv; split <;> rfl

/-- a file with known content is not stored -/
theorem objAdd_known {w : World} {o : Obj} {p area : Str} {d : Bytes} (hs : storesAnew w o p area d true = false)
    (he : (objAdd w o p area d true).err = none) : (objAdd w o p area d true).obj.trace = o.trace := by
  unfold objAdd at he ⊢
  split at he
  · cases he
  · rename_i hwr
    rw [if_neg hwr]
    split at he
    · cases he
    · rename_i names mp hb
      obtain ⟨hn, _⟩ := buildNames_ok hb
      obtain ⟨q, hq, hn⟩ := res_bind_eq_ok.1 hn
      cases hn
      have hq : w.statePath p area = .ok q := hq
      rw [if_pos rfl] at he ⊢
      split at he
      · cases he
      · rename_i h hh
        unfold storesAnew at hs
        rw [hq, hh] at hs
        simp only [Bool.not_true, Bool.false_or] at hs
        rw [show [q].reverse.headD [] = q from rfl] at he ⊢
        unfold addChecked at he ⊢
        simp only at he ⊢
        cases hx : alreadyExists o.inv q (h d) with
        | error e => simp only [hx] at he; cases he
        | ok b =>
          cases b with
          | true => rfl
          | false =>
            rw [hx] at hs
            simp only [decide_eq_false_iff_not] at hs
            rw [if_pos hs]
            exact withInv_trace _ _

theorem echoIf_trace {w : World} {o : Obj} : (if o.echo then objEcho w o else ok o).obj.trace = o.trace := by
  split
  · unfold objEcho
    split
    · rfl
    · exact withInv_trace _ _
  · rfl

/-- **C107 fails with the check for duplicates**: if the content of the only file added is in the object already, under
this or another name, nothing about the file is recorded in this process or stored in the object. -/
theorem C107_full_fails_known {M : Type} {x : FsExt M} {k : FsStore M} {inv i : Inv} {n : Nat} {v : VInfo} {echo : Bool}
    {area p : Str} {d : Bytes} (hw : WF inv n) (hi : newVersion inv v.msg v.userName v.userAddress v.now = .ok i)
    (hs : storesAnew x.w ⟨i, [], echo, []⟩ p area d true = false)
    (he : (fsUpdate x k inv v echo true area [.file p d]).err = none) :
    (fsUpdate x k inv v echo true area [.file p d]).st = recNew ∧
    ∀ op ∈ (fsUpdate x k inv v echo true area [.file p d]).obj.trace,
      op.path = verInvPath i.head ∨ op.path = verSidecarPath i.head i.digestAlg := by
  have hw1 := newVersion_ok_gapFree hw.1 hw.2 hi
  have hst : startUpdate x.w ⟨inv, [], false, []⟩ v echo [] = ⟨⟨i, [], echo, []⟩, none⟩ := by
    unfold startUpdate withInv; rw [hi]; rfl
  have hA := objAdd_onlyAdds (w := x.w) (o := ⟨i, [], echo, []⟩) (path := p) (area := area) (data := d) (c := true) hw1
  have hT := fun h => objAdd_known (w := x.w) hs h
  unfold fsUpdate at he ⊢
  rw [hst] at he ⊢
  simp only [addTree, addEntry, hs] at he ⊢
  cases ho : objAdd x.w ⟨i, [], echo, []⟩ p area d true with
  | mk o' e =>
    rw [ho] at hA hT
    cases e with
    | some e => simp only [ho] at he; cases he
    | none =>
      simp only [ho, Bool.false_eq_true, if_false] at he ⊢
      have hT : o'.trace = [] := hT rfl
      unfold fsEndUpdate at he ⊢
      split at he
      · rename_i h; rw [if_pos h]; exact ⟨rfl, by rw [hT]; simp⟩
      · rename_i h; rw [if_neg h]
        split at he
        · rename_i h; rw [if_pos h]; exact ⟨rfl, by rw [hT]; simp⟩
        · rename_i h; rw [if_neg h]
          have hE := (echoIf_step (w := x.w) (U := fun _ _ => True) (o := o')).headOnly
          have hM : (if o'.echo then objEcho x.w o' else ok o').obj.inv.modified = true := by
            obtain ⟨ops, h1, _⟩ := (echoIf_step (w := x.w) (U := fun _ _ => True) (o := o')).inv
            exact run_modified h1 (by simpa using h)
          have hT1 := echoIf_trace (w := x.w) (o := o')
          split at he
          · cases he
          · rename_i o1 ho1
            rw [ho1] at hE hT1 hM
            simp only at hE hT1 hM ⊢
            have hN : fsAfterUpdate x k recNew o1 = ⟨recNew, o1, none⟩ := rfl
            rw [hN] at he ⊢
            simp only at he ⊢
            rw [show withInv o1 (clean o1.inv) = ok o1 by rw [clean_modified hM]; rfl, andThen_ok] at he ⊢
            refine ⟨trivial, ?_⟩
            obtain ⟨_, _, t, ht, hops⟩ := storeInventory_trace (w := x.w) (o := o1) (v := true) (r := false)
            rw [ht, hT1, hT, List.nil_append]
            have hh : o1.inv.head = i.head := hE.head.trans hA.inv.head
            have hg : o1.inv.digestAlg = i.digestAlg := hE.alg.trans hA.inv.alg
            intro op hop
            rcases hops op hop with ⟨h, _⟩ | ⟨_, h⟩
            · cases h
            · rw [hh, hg] at h; exact h

/-! ### Records: examples -/

def exFs4 : FsExt Nat := { exFs with w := exWorld4 }

/-- the extension of an object whose files are in a folder `data` -/
def exFsArea : FsExt Nat := { exFs with w := { exWorld with statePath := fun p _ => .ok ("data/".toList ++ p) } }

/-- a new file and one with a content the object has -/
def exKnown : List SrcEntry := [.file "n".toList [9], .file "c".toList [1]]

theorem exKnown_reported : fsMetadata exFsStore (fsUpdate exFs4 exFsStore exInv ⟨[], [], [], []⟩ false false [] exKnown).st
    (fsUpdate exFs4 exFsStore exInv ⟨[], [], [], []⟩ false false [] exKnown).obj.inv [] =
    .ok [("d1".toList, ⟨"c".toList, "v3".toList, 1⟩), ("d4".toList, ⟨"n".toList, "v3".toList, 1⟩)] := by decide

example : ∃ m, exFs4.stat "c".toList = .ok m ∧ ("d1".toList, ⟨"c".toList,
    (fsUpdate exFs4 exFsStore exInv ⟨[], [], [], []⟩ false false [] exKnown).obj.inv.head, m⟩) ∈
    [("d1".toList, (⟨"c".toList, "v3".toList, 1⟩ : FsLine Nat)), ("d4".toList, ⟨"n".toList, "v3".toList, 1⟩)] :=
  C107_files_reported_partial (x := exFs4) (es := exKnown) exInv_wf2 (by decide) exKnown_reported (d := [1])
    (by simp [exKnown]) rfl
    ⟨_, ["a".toList, "c".toList], mem_of_mget (v := ⟨_, [], [], [], _⟩) rfl, by decide, by decide⟩

example : storesAnew exFs4.w ⟨(startUpdate exWorld4 ⟨exInv, [], false, []⟩ ⟨[], [], [], []⟩ false []).obj.inv, [], false, []⟩
    "c".toList [] [1] true = false ∧
    (fsUpdate exFs4 exFsStore exInv ⟨[], [], [], []⟩ false true [] [.file "c".toList [1]]).err = none := by decide

theorem C107_full_fails : ¬ C107_full := by
  intro hf
  have h := (hf Nat exFs4 exFsStore exInv 2 ⟨[], [], [], []⟩ false true [] exKnown [] _ exInv_wf2 (by decide)
    (show _ = Except.ok [("d4".toList, ⟨"n".toList, "v3".toList, 1⟩)] by decide)).1 "c".toList [1] "c".toList "d1".toList
    (by simp [exKnown]) rfl
    ⟨_, ["a".toList, "c".toList], mem_of_mget (v := ⟨_, [], [], [], _⟩) rfl, by decide, by decide⟩
  obtain ⟨m, _, hm⟩ := h
  rw [List.mem_singleton] at hm
  exact absurd (congrArg Prod.fst hm) (show ¬ "d1".toList = "d4".toList by decide)

/-- **C107 fails for the first folder** of an object whose files get another path in the version: its placeholder is
recorded under the path in the source. -/
theorem C107_full_fails_folder : ¬ C107_full := by
  intro hf
  have h := (hf Nat exFsArea exFsStore exInv 2 ⟨[], [], [], []⟩ false true [] [.dir "x".toList, .file "z".toList [7]] [] _
    exInv_wf2 (by decide) (show _ = Except.ok [("a0".toList, ⟨"data/z".toList, "v3".toList, 1⟩)] by decide)).2 (by decide)
    "x".toList "data/x/.keep".toList "a".toList (by simp) (by decide)
    ⟨_, ["data/x/.keep".toList], mem_of_mget (v := ⟨_, [], [], [], _⟩) rfl, by decide, by decide⟩
  obtain ⟨m, _, hm⟩ := h
  rw [List.mem_singleton] at hm
  exact absurd (congrArg Prod.fst hm) (show ¬ "a".toList = "a0".toList by decide)

/-! ### C108: recording does not make an update fail -/

/-- the stream of version `head` is open and holds `ls` -/
structure RecOpen {L : Type} (s : RecSt L) (head : Str) (ls : List L) : Prop where
  writer : s.writer = some true
  current : s.currentHead = head
  lines : mget s.buffer head = some ls

/-- what is held for other versions -/
def SameElse {L : Type} (s s' : RecSt L) (head : Str) : Prop := ∀ v, v ≠ head → mget s'.buffer v = mget s.buffer v

theorem recWrites_open {L : Type} {head : Str} (ls : List L) : ∀ {s : RecSt L} {acc : List L}, RecOpen s head acc →
    ∃ s', ls.foldlM recWrite s = some s' ∧ RecOpen s' head (acc ++ ls) ∧ SameElse s s' head := by
  induction ls with
  | nil => intro s acc h; exact ⟨s, rfl, by simpa using h, fun _ _ => rfl⟩
  | cons l ls ih =>
    intro s acc h
    have hw : recWrite s l = some { s with buffer := mset s.buffer head (acc ++ [l]) } := by
      unfold recWrite
      rw [h.writer]
      simp only
      rw [h.current, h.lines]
      rfl
    obtain ⟨s', h1, h2, h3⟩ := ih (s := { s with buffer := mset s.buffer head (acc ++ [l]) }) (acc := acc ++ [l])
      ⟨h.writer, h.current, mget_mset_self _ _ _⟩
    refine ⟨s', ?_, by simpa using h2, ?_⟩
    · rw [List.foldlM_cons, hw]; exact h1
    · intro v hv
      rw [h3 v hv]
      exact mget_mset_ne _ (fun e => hv e.symm) _

theorem recHook_open {L : Type} {s : RecSt L} {head : Str} {acc : List L} (h : RecOpen s head acc) (ls : List L) :
    ∃ s', recHook s head ls = some s' ∧ RecOpen s' head (acc ++ ls) ∧ SameElse s s' head := by
  have hb : recBegin s head = s := by
    unfold recBegin
    simp only
    rw [if_pos h.current, h.lines]
    rfl
  unfold recHook
  rw [hb]
  exact recWrites_open ls h

theorem recHook_first {L : Type} {s : RecSt L} {head : Str} (hc : s.currentHead ≠ head) (hb : mget s.buffer head = none)
    (ls : List L) : ∃ s', recHook s head ls = some s' ∧ RecOpen s' head ls ∧ SameElse s s' head := by
  have hb' : recBegin s head = ⟨mset s.buffer head [], some true, head⟩ := by
    unfold recBegin
    simp only
    rw [if_neg hc, hb]
    rfl
  unfold recHook
  rw [hb']
  obtain ⟨s', h1, h2, h3⟩ := recWrites_open ls (s := ⟨mset s.buffer head [], some true, head⟩) (head := head) (acc := [])
    ⟨rfl, rfl, mget_mset_self _ _ _⟩
  refine ⟨s', h1, by simpa using h2, ?_⟩
  intro v hv
  rw [h3 v hv]
  exact mget_mset_ne _ (fun e => hv e.symm) _

theorem recHooks_open {L : Type} {head : Str} (hs : List (List L)) : ∀ {s : RecSt L} {acc : List L}, RecOpen s head acc →
    ∃ s', hs.foldlM (fun s ls => recHook s head ls) s = some s' ∧ RecOpen s' head (acc ++ hs.flatten) ∧ SameElse s s' head := by
  induction hs with
  | nil => intro s acc h; exact ⟨s, rfl, by simpa using h, fun _ _ => rfl⟩
  | cons l hs ih =>
    intro s acc h
    obtain ⟨s1, a1, a2, a3⟩ := recHook_open h l
    obtain ⟨s', h1, h2, h3⟩ := ih a2
    refine ⟨s', ?_, by simpa using h2, fun v hv => (h3 v hv).trans (a3 v hv)⟩
    rw [List.foldlM_cons, a1]; exact h1

/-- What an extension holds between versions: nothing, or the closed stream of an earlier version. -/
structure RecIdle {L : Type} (s : RecSt L) (used : List Str) (any : Bool) : Prop where
  writer : s.writer = if any then some false else none
  current : s.currentHead = [] ∨ s.currentHead ∈ used
  buffer : ∀ v, v ∉ used → mget s.buffer v = none

/-- a version in which something is recorded -/
theorem recVersion_some {L : Type} {s : RecSt L} {used : List Str} {any : Bool} (hi : RecIdle s used any) {v : RecVersion L}
    (h0 : v.head ≠ []) (hu : v.head ∉ used) (hh : v.hooks ≠ []) :
    ∃ s', recVersion s v = .ok (s', some v.hooks.flatten) ∧ RecIdle s' (v.head :: used) true := by
  obtain ⟨head, hooks⟩ := v
  cases hooks with
  | nil => exact absurd rfl hh
  | cons l hs =>
    have hc : s.currentHead ≠ head := by
      rcases hi.current with h | h
      · rw [h]; exact fun e => h0 e.symm
      · intro e; rw [e] at h; exact hu h
    obtain ⟨s1, a1, a2, a3⟩ := recHook_first hc (hi.buffer _ hu) l
    obtain ⟨s2, b1, b2, b3⟩ := recHooks_open hs a2
    refine ⟨{ s2 with writer := some false }, ?_, rfl, ?_, ?_⟩
    · unfold recVersion
      simp only [List.foldlM_cons]
      rw [show (recHook s head l >>= fun s' => hs.foldlM (fun s ls => recHook s head ls) s') = some s2 by
        rw [a1]; exact b1]
      simp only
      unfold recEnd
      rw [b2.writer]
      simp only
      rw [if_neg h0, b2.lines]
      rfl
    · right
      rw [show ({ s2 with writer := some false } : RecSt L).currentHead = head from b2.current]
      simp
    · intro w hw
      have h1 : w ≠ head := fun e => hw (by simp [e])
      have h2 : w ∉ used := fun e => hw (by simp [e])
      show mget s2.buffer w = none
      rw [b3 w h1, a3 w h1]
      exact hi.buffer w h2

/-- a version in which nothing is recorded -/
theorem recVersion_none {L : Type} {s : RecSt L} {used : List Str} {any : Bool} (hi : RecIdle s used any) {v : RecVersion L}
    (hh : v.hooks = []) :
    recVersion s v = if any then .error (.error "cannot flush brotli writer") else .ok (s, none) := by
  unfold recVersion
  rw [hh]
  simp only [List.foldlM_nil]
  unfold recEnd
  show (match s.writer with | none => _ | some false => _ | some true => _) = _
  rw [hi.writer]
  cases any <;> rfl

/-- What a version is to store: the lines recorded in it, in their order. -/
def recStored {L : Type} (v : RecVersion L) : Option (List L) := if v.hooks = [] then none else some v.hooks.flatten

theorem recRun_idle {L : Type} (vs : List (RecVersion L)) : ∀ {s : RecSt L} {used : List Str} {any : Bool},
    RecIdle s used any → (∀ v ∈ vs, v.head ≠ [] ∧ v.head ∉ used) → (vs.map (·.head)).Nodup →
    ((∃ s', recRun s vs = .ok (s', vs.map recStored)) ∧ (any = true → ∀ v ∈ vs, v.hooks ≠ []) ∧
      vs.Pairwise (fun a b => a.hooks ≠ [] → b.hooks ≠ [])) ∨
    ((∃ e, recRun s vs = .error e) ∧ ¬ ((any = true → ∀ v ∈ vs, v.hooks ≠ []) ∧
      vs.Pairwise (fun a b => a.hooks ≠ [] → b.hooks ≠ []))) := by
  induction vs with
  | nil => intro s used any _ _ _; exact Or.inl ⟨⟨s, rfl⟩, by simp, List.Pairwise.nil⟩
  | cons v vs ih =>
    intro s used any hi hv hn
    rw [List.map_cons, List.nodup_cons] at hn
    by_cases hh : v.hooks = []
    · have hr := recVersion_none hi hh
      cases any with
      | true =>
        right
        refine ⟨⟨.error "cannot flush brotli writer", ?_⟩, fun h => h.1 rfl v (by simp) hh⟩
        unfold recRun
        rw [hr]
        rfl
      | false =>
        have hr : recVersion s v = .ok (s, none) := hr
        have hrun : recRun s (v :: vs) = recRun s vs >>= fun q => .ok (q.1, none :: q.2) := by
          rw [recRun, hr, res_bind_ok]
        rcases ih hi (fun w hw => hv w (by simp [hw])) hn.2 with ⟨⟨s', h1⟩, h2, h3⟩ | ⟨⟨e, h1⟩, h2⟩
        · left
          refine ⟨⟨s', ?_⟩, fun h => absurd h (by simp), ?_⟩
          · rw [hrun, h1, res_bind_ok]
            simp [recStored, hh]
          · rw [List.pairwise_cons]
            exact ⟨fun b _ h => absurd hh h, h3⟩
        · right
          refine ⟨⟨e, by rw [hrun, h1]; rfl⟩, fun h => h2 ⟨fun h' => absurd h' (by simp), ?_⟩⟩
          exact (List.pairwise_cons.1 h.2).2
    · obtain ⟨s1, a1, a2⟩ := recVersion_some hi (hv v (by simp)).1 (hv v (by simp)).2 hh
      have hrun : recRun s (v :: vs) = recRun s1 vs >>= fun q => .ok (q.1, some v.hooks.flatten :: q.2) := by
        rw [recRun, a1, res_bind_ok]
      have hv' : ∀ w ∈ vs, w.head ≠ [] ∧ w.head ∉ v.head :: used := by
        intro w hw
        refine ⟨(hv w (by simp [hw])).1, ?_⟩
        rw [List.mem_cons]
        rintro (h | h)
        · exact hn.1 (h ▸ List.mem_map_of_mem hw)
        · exact (hv w (by simp [hw])).2 h
      rcases ih a2 hv' hn.2 with ⟨⟨s', h1⟩, h2, h3⟩ | ⟨⟨e, h1⟩, h2⟩
      · left
        refine ⟨⟨s', ?_⟩, fun _ => ?_, ?_⟩
        · rw [hrun, h1, res_bind_ok]
          simp [recStored, hh]
        · intro w hw
          rcases List.mem_cons.1 hw with rfl | hw
          · exact hh
          · exact h2 rfl w hw
        · rw [List.pairwise_cons]
          exact ⟨fun b hb _ => h2 rfl b hb, h3⟩
      · right
        refine ⟨⟨e, by rw [hrun, h1]; rfl⟩, fun h => h2 ⟨fun _ w hw => ?_, (List.pairwise_cons.1 h.2).2⟩⟩
        exact (List.pairwise_cons.1 h.2).1 w hw hh

theorem recNew_idle {L : Type} : RecIdle (recNew : RecSt L) [] false := ⟨rfl, Or.inl rfl, fun _ _ => rfl⟩

/-- The full statement (false): whatever is recorded in the versions made by a process, their ends store it. -/
def C108_full : Prop :=
  ∀ (L : Type) (vs : List (RecVersion L)), (∀ v ∈ vs, v.head ≠ []) → (vs.map (·.head)).Nodup →
    ∃ s', recRun recNew vs = .ok (s', vs.map recStored)

/-- **C108, exactly when it holds**: all versions of the process can be ended iff no version in which nothing is recorded
follows one in which something was.  Then each version stores exactly the lines recorded in it. -/
theorem C108_completes_iff {L : Type} {vs : List (RecVersion L)} (h0 : ∀ v ∈ vs, v.head ≠ []) (hn : (vs.map (·.head)).Nodup) :
    ((∃ r, recRun recNew vs = .ok r) ↔ vs.Pairwise (fun a b => a.hooks ≠ [] → b.hooks ≠ [])) ∧
    ∀ s' r, recRun recNew vs = .ok (s', r) → r = vs.map recStored := by
  rcases recRun_idle vs recNew_idle (fun v hv => ⟨h0 v hv, by simp⟩) hn with ⟨⟨s', h1⟩, _, h3⟩ | ⟨⟨e, h1⟩, h2⟩
  · refine ⟨⟨fun _ => h3, fun _ => ⟨_, h1⟩⟩, ?_⟩
    intro s'' r h
    rw [h1] at h
    cases h
    rfl
  · refine ⟨⟨?_, fun h => absurd ⟨fun h' => absurd h' (by simp), h⟩ h2⟩, ?_⟩
    · rintro ⟨r, h⟩
      rw [h1] at h
      cases h
    · intro s'' r h
      rw [h1] at h
      cases h

/-- the automatic version of the migration: what the hooks of other extensions see of it — each result, added with
`AddReader` (pkg/subsystem/migration/helper.go:108), but nothing of a conversion that failed -/
def migHooks {L : Type} (hook : MigLine → List L) (ls : List MigLine) : List (List L) :=
  (ls.filter (fun l => !l.failed)).map hook

/-- if no conversion succeeds all lines are about failures -/
theorem migrateFiles_failed {m : MigWorld} {prev : Str} {results before : List Str} (todo : List (Str × MigFun)) :
    (∀ e ∈ todo, ∀ b, e.2.run b = none) → ∀ (o : Obj) (l : MigLine),
      l ∈ (migrateFiles m prev results before o todo).lines → l.failed = true := by
  induction todo with
  | nil => intro _ o l hl; cases hl
  | cons e todo ih =>
    obtain ⟨cs, f⟩ := e
    intro hrun o l hl
    have ih := ih (fun e he => hrun e (List.mem_cons_of_mem _ he))
    rw [migrateFiles] at hl
    split at hl
    · exact ih o l hl
    · have h1 : ∀ l ∈ (migrateOne m prev (decide (cs ∈ results)) o cs f).lines, l.failed = true := by
        intro l hl
        unfold migrateOne at hl
        split at hl
        · cases hl
        · cases hl
        · rename_i p hp
          rw [show doMigrate m o f p = fail o "cannot migrate file" by
            unfold doMigrate; rw [hrun (cs, f) (by simp) p.data]] at hl
          simp only [fail, List.mem_singleton] at hl
          rw [hl]
      split at hl
      · rename_i o1 e ls hm
        rw [hm] at h1
        exact h1 l hl
      · rename_i o1 ls hm
        rw [hm] at h1
        rcases List.mem_append.1 hl with h | h
        · exact h1 l h
        · exact ih o1 l h

/-- **C108 fails after conversions that fail**: something was recorded about a file of the new version `v1`, and none of
the commands that are run for the automatic version `v2` succeeds.  The migration only notes that; but the end of `v2`
fails, for want of a record to store — with the object's new content in place and no root inventory written yet. -/
theorem C108_full_fails_conversions {L : Type} {m : MigWorld} {results before : List Str} {o : Obj} {todo : List (Str × MigFun)}
    (hrun : ∀ e ∈ todo, ∀ b, e.2.run b = none) (hook : MigLine → List L) {v1 v2 : Str} {hooks : List (List L)}
    (h1 : v1 ≠ []) (h2 : v2 ≠ []) (hne : v1 ≠ v2) (hh : hooks ≠ []) :
    ∃ e, recRun recNew [⟨v1, hooks⟩, ⟨v2, migHooks hook (migrationDo m results before o todo).lines⟩] = .error e := by
  have hl : ∀ l ∈ (migrationDo m results before o todo).lines, l.failed = true := by
    intro l hl
    unfold migrationDo at hl
    split at hl
    · exact migrateFiles_failed todo hrun o l hl
    · cases hl
  have hm : migHooks hook (migrationDo m results before o todo).lines = [] := by
    unfold migHooks
    rw [List.map_eq_nil_iff, List.filter_eq_nil_iff]
    intro l h
    rw [hl l h]
    simp
  rw [hm]
  have hc := (C108_completes_iff (L := L) (vs := [⟨v1, hooks⟩, ⟨v2, []⟩]) (by simp [h1, h2]) (by simp [hne])).1
  cases hr : recRun recNew [⟨v1, hooks⟩, (⟨v2, []⟩ : RecVersion L)] with
  | error e => exact ⟨e, rfl⟩
  | ok r =>
    have := hc.1 ⟨r, hr⟩
    rw [List.pairwise_cons] at this
    exact absurd rfl (this.1 _ (List.mem_singleton.2 rfl) hh)

theorem C108_full_fails : ¬ C108_full := by
  intro h
  obtain ⟨s', hs'⟩ := h Nat [⟨"v1".toList, [[1]]⟩, ⟨"v2".toList, []⟩] (by decide) (by decide)
  have := ((C108_completes_iff (L := Nat) (vs := [⟨"v1".toList, [[1]]⟩, ⟨"v2".toList, []⟩]) (by decide) (by decide)).1).1 ⟨_, hs'⟩
  rw [List.pairwise_cons] at this
  exact absurd rfl (this.1 _ (List.mem_singleton.2 rfl) (by simp))

/-- a process that makes three versions -/
example : ∃ s', recRun recNew [⟨"v1".toList, []⟩, ⟨"v2".toList, [[1, 2], [], [3]]⟩, (⟨"v3".toList, [[4]]⟩ : RecVersion Nat)] =
    .ok (s', [none, some [1, 2, 3], some [4]]) := ⟨_, rfl⟩

/-! ### C109: updates without new content -/

/-- The full statement (false): if the technical metadata of the object could be read before, the hook of the migration
gets it at the end of an update — whatever the update was. -/
def C109_full : Prop :=
  ∀ (V : Type) (c : Compr) (exts : List PathExt) (folder : Str) (cfg : MetaCfg) (lines : Bytes → Res (List (Str × V)))
    (w : World) (o : Obj) (n : Nat) (v : VInfo) (calls : List Call) (fs : FS), WF o.inv n →
    (∃ M, indexDuring c exts folder cfg lines [] o.inv fs = .ok M) →
    ((startUpdate w o v false []).andThen (fun o => runCalls w o calls)).err = none →
    ∃ M, indexDuring c exts folder cfg lines []
      ((startUpdate w o v false []).andThen (fun o => runCalls w o calls)).obj.inv
      (applyOps fs ((startUpdate w o v false []).andThen (fun o => runCalls w o calls)).obj.trace) = .ok M

/-- **C109, exactly when it holds**: every version, also the one being made, has index lines — in this process or in the
object. -/
theorem C109_completes_iff {V : Type} {c : Compr} {exts : List PathExt} {folder : Str} {cfg : MetaCfg}
    {lines : Bytes → Res (List (Str × V))} {buf : AMap Str Bytes} {inv : Inv} {fs : FS} :
    (∃ M, indexDuring c exts folder cfg lines buf inv fs = .ok M) ↔
      ∀ v ∈ mkeys inv.versions, ∃ b ls, lines b = .ok ls ∧ (mget buf v = some b ∨ (mget buf v = none ∧
        readJsonL c exts folder inv fs "indexer".toList v cfg = .ok b)) := by
  unfold indexDuring
  rw [readIndex_completes]
  refine forall₂_congr fun v _ => ?_
  constructor
  · rintro ⟨b, ls, h1, h2⟩
    cases hb : mget buf v with
    | some b' => rw [hb] at h1; cases h1; exact ⟨b, ls, h2, Or.inl rfl⟩
    | none => rw [hb] at h1; exact ⟨b, ls, h2, Or.inr ⟨rfl, h1⟩⟩
  · rintro ⟨b, ls, h2, h1 | ⟨h1, h3⟩⟩
    · exact ⟨b, ls, by rw [h1], h2⟩
    · exact ⟨b, ls, by rw [h1]; exact h3, h2⟩

/-- **C109 fails for every update without new content** (deletions, renames, further names of known content): nothing was
indexed, there is no index file of the new version, and the end of the update fails. -/
theorem C109_full_fails_no_content {V : Type} {c : Compr} {exts : List PathExt} {folder ext t : Str} {cfg : MetaCfg}
    {lines : Bytes → Res (List (Str × V))} {buf : AMap Str Bytes} {inv : Inv} {n : Nat} {fs : FS} (hg : GapFree inv n)
    (hn : 0 < n) (hb : mget buf inv.head = none) (he : comprExt cfg.compress = some ext)
    (ht : jsonlTarget exts folder inv "indexer".toList inv.head ext cfg = .ok t) (hf : mget fs t = none) :
    ¬ ∃ M, indexDuring c exts folder cfg lines buf inv fs = .ok M := by
  rw [C109_completes_iff]
  intro h
  obtain ⟨b, ls, _, h1 | ⟨_, h1⟩⟩ := h inv.head (hg.head_mem hn)
  · rw [hb] at h1; cases h1
  · unfold readJsonL at h1
    rw [he] at h1
    simp only at h1
    rw [ht, res_bind_ok, hf] at h1
    cases h1

/-- an object with index files for its two versions -/
def exIndexFs : FS := [("extensions/NNNN-indexer/m/indexer_v1.jsonl".toList, [1]),
  ("extensions/NNNN-indexer/m/indexer_v2.jsonl".toList, [2])]

def exIndexCfg : MetaCfg := ⟨"none".toList, "extension".toList, "m".toList⟩

theorem C109_full_fails : ¬ C109_full := by
  intro h
  obtain ⟨M, hM⟩ := h Nat exCompr [] "NNNN-indexer".toList exIndexCfg (fun b => .ok (b.map (fun i => ([], i.toNat)))) exWorld
    ⟨exInv, [], false, []⟩ 2 ⟨[], [], [], []⟩ [.delete "a".toList "d1".toList] exIndexFs exInv_wf2 ⟨[([], 1)], by decide⟩ (by decide)
  exact C109_full_fails_no_content (ext := []) (t := "extensions/NNNN-indexer/m/indexer_v3.jsonl".toList) (n := 3)
    (by exact ⟨by decide, by decide⟩) (by decide) rfl (by decide) (by decide) (by decide) ⟨M, hM⟩

end Gocfl
