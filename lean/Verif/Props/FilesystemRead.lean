import Verif.Props.Filesystem
import Verif.Props.JsonL

/-!
# C107, continued: the records of an update are read back by another process
-/

namespace Gocfl

/-! ### The file of the records is none of the inventories -/

/-- No component of the settings that is used as a folder is `..` or the like; only the storage type `path` uses one that
`MetaFindable` does not restrict.  `path` does not mention `subs = []`, where nothing is put before the name. -/
structure MetaClean (subs : List SubPathExt) (cfg : MetaCfg) : Prop where
  name : cfg.storageType = "path".toList → CleanRel cfg.storageName
  path : cfg.storageType = "path".toList → ∀ e ∈ subs, ∀ s, mget e.paths "content".toList = some s → CleanRel s

theorem below_content_ne {inv : Inv} {i alg : Str} (ha : '/' ∉ alg) :
    inv.head ++ '/' :: (inv.contentDir ++ '/' :: i) ≠ verInvPath inv.head ∧
    inv.head ++ '/' :: (inv.contentDir ++ '/' :: i) ≠ verSidecarPath inv.head alg := by
  constructor
  · intro h
    unfold verInvPath at h
    have h := List.append_cancel_left h
    have hm : '/' ∈ "inventory.json".toList := by
      have h : '/' :: (inv.contentDir ++ '/' :: i) = '/' :: "inventory.json".toList := h
      injection h with _ h
      rw [← h]; simp
    exact absurd hm (by decide)
  · intro h
    unfold verSidecarPath at h
    have h := List.append_cancel_left h
    have hm : '/' ∈ "inventory.json.".toList ++ alg := by
      have h : '/' :: (inv.contentDir ++ '/' :: i) = '/' :: ("inventory.json.".toList ++ alg) := h
      injection h with _ h
      rw [← h]; simp
    rcases List.mem_append.1 hm with hm | hm
    · exact absurd hm (by decide)
    · exact ha hm

theorem extPath_ne_version {s x : Str} {pad m : Int} : extPath s ≠ verName pad m ++ x := by
  intro h
  unfold extPath verName at h
  have h := congrArg List.head? h
  split at h
  · rw [show List.head? ("extensions/".toList ++ s) = some 'e' from rfl] at h
    exact absurd (Option.some.inj h) (by decide)
  · rw [show List.head? ("extensions/".toList ++ s) = some 'e' from rfl] at h
    exact absurd (Option.some.inj h) (by decide)

theorem areaChain_sub_none {e : SubPathExt} {a s : Str} (h : mget e.paths a = none) :
    areaChain [e.toPathExt] a false ≠ .ok s := by
  simp only [areaChain, SubPathExt.toPathExt, SubPathExt.areaPath, h]
  intro h'
  cases h'

theorem target_not_inventory {subs : List SubPathExt} {folder : Str} {inv : Inv} {n : Nat} {name ext p alg : Str}
    {cfg : MetaCfg} (hw : WF inv n) (hn0 : 0 < n) (hc : ValidComp inv.contentDir) (hn : '/' ∉ name) (he : '/' ∉ ext)
    (hf : MetaFindable subs cfg) (hcl : MetaClean subs cfg) (ha : '/' ∉ alg)
    (ht : jsonlTarget (subs.map SubPathExt.toPathExt) folder inv name inv.head ext cfg = .ok p) :
    p ≠ verInvPath inv.head ∧ p ≠ verSidecarPath inv.head alg := by
  have hv := wf_head_valid hw hn0
  have n12 : "area".toList ≠ "path".toList := by decide
  have n13 : "area".toList ≠ "extension".toList := by decide
  have n23 : "path".toList ≠ "extension".toList := by decide
  have hj := jsonlName_clean (v := inv.head) hn hv he
  have key : ∀ i, CleanRel i → .ok (buildManifestNameVersion inv i inv.head) = (.ok p : Res Str) →
      p ≠ verInvPath inv.head ∧ p ≠ verSidecarPath inv.head alg := by
    intro i hi h
    cases h
    rw [buildManifestNameVersion_clean hv hc hi]
    exact below_content_ne ha
  unfold jsonlTarget at ht
  rcases hf with h | ⟨rfl, h | h⟩ | ⟨e, rfl, ⟨h, hac, hs1, hs2⟩ | ⟨h, hfull⟩⟩
  · rw [h, if_neg n13.symm, if_neg n23.symm, if_pos rfl] at ht
    cases ht
    rw [hw.1.head_eq hn0]
    unfold verInvPath verSidecarPath
    exact ⟨extPath_ne_version, extPath_ne_version⟩
  · rw [h, if_pos rfl] at ht
    simp only [List.map_nil, areaChain, Bool.false_eq_true, if_false, res_bind_ok, List.nil_append] at ht
    rw [buildManifestNameVersion_slash hv hc] at ht
    exact key _ hj ht
  · rw [h, if_neg n12.symm, if_pos rfl] at ht
    simp only [List.map_nil, areaChain, Bool.false_eq_true, if_false, res_bind_ok, List.nil_append] at ht
    rw [buildManifestNameVersion_slash hv hc] at ht
    exact key _ ((hcl.name h).join hj) ht
  · rw [h, if_pos rfl] at ht
    obtain ⟨s, hs, ht⟩ := res_bind_eq_ok.1 ht
    cases hm : mget e.paths cfg.storageName with
    | none => exact absurd hs (areaChain_sub_none hm)
    | some s' =>
      simp only [List.map_cons, List.map_nil, areaChain_sub hm] at hs
      cases hs
      rcases hac _ _ hm with rfl | hs
      · rw [List.nil_append, buildManifestNameVersion_slash hv hc] at ht
        exact key _ hj ht
      · exact key _ (hs.join hj) ht
  · rw [h, if_neg n12.symm, if_pos rfl] at ht
    obtain ⟨s, hs, ht⟩ := res_bind_eq_ok.1 ht
    cases hm : mget e.paths "content".toList with
    | none => exact absurd hs (areaChain_sub_none hm)
    | some s' =>
      simp only [List.map_cons, List.map_nil, areaChain_sub hm] at hs
      cases hs
      exact key _ ((hcl.path h e (by simp) s hm).join ((hcl.name h).join hj)) ht

/-! ### The writer of the records -/

/-- an extension without a writer has recorded nothing -/
def Began {L : Type} (s : RecSt L) : Prop := s.writer = none → s.buffer = [] ∧ s.currentHead = []

theorem began_recBegin {L : Type} {s : RecSt L} {head : Str} (hs : Began s) (hh : head ≠ []) : Began (recBegin s head) := by
  intro h
  unfold recBegin at h
  simp only at h
  split at h
  · rename_i hc
    rw [(hs h).2] at hc
    exact absurd hc.symm hh
  · cases h

theorem began_fsWrite {M : Type} {s : RecSt (FsLine M)} {o : Obj} {l : FsLine M} (hs : Began s) : Began (fsWrite s o l).st := by
  unfold fsWrite
  split
  · exact hs
  · rename_i s' h
    intro hn
    obtain ⟨_, _, _, h1, h2⟩ := recWrite_lines h
    rw [h1, h2] at hn
    cases hn

theorem began_addEntry {M : Type} {x : FsExt M} {c : Bool} {area : Str} {s : RecSt (FsLine M)} {o : Obj} {n : Nat}
    (hw : WF o.inv n) (hh : o.inv.head ≠ []) (hs : Began s) (e : SrcEntry) : Began (addEntry x c area s o e).st := by
  cases e with
  | file p d =>
    have h := objAdd_onlyAdds (w := x.w) (path := p) (area := area) (data := d) (c := c) hw
    simp only [addEntry]
    split
    · exact hs
    · rename_i o' he
      rw [he] at h
      have hb := began_recBegin hs (head := o'.inv.head) (by rw [h.inv.head]; exact hh)
      split
      · unfold fsAfterFile
        split
        · exact hb
        · split
          · exact hb
          · exact began_fsWrite hb
      · exact hs
  | dir p =>
    have hb := began_recBegin hs hh
    simp only [addEntry]
    split
    · exact hs
    · split
      · exact hs
      · unfold fsAfterDir
        split
        · exact hs
        · split
          · exact hs
          · split
            · exact hb
            · split
              · exact hb
              · split
                · exact hb
                · exact began_fsWrite hb

theorem began_addTree {M : Type} {x : FsExt M} {c : Bool} {area : Str} {n : Nat} (es : List SrcEntry) :
    ∀ {s : RecSt (FsLine M)} {o : Obj}, WF o.inv n → o.inv.head ≠ [] → Began s → Began (addTree x c area s o es).st := by
  induction es with
  | nil => intro s o _ _ h; exact h
  | cons e es ih =>
    intro s o hw hh hs
    have h := addEntry_onlyAdds (x := x) (c := c) (area := area) (s := s) hw e
    have hb := began_addEntry (x := x) (c := c) (area := area) hw hh hs e
    rw [addTree]
    split
    · rename_i he
      rw [he] at hb
      exact hb
    · rename_i he
      rw [he] at h hb
      exact ih (h.wf n hw) (by rw [h.inv.head]; exact hh) hb

theorem recEnd_some {L : Type} {s s' : RecSt L} {head : Str} {r : Option (List L)} {ls : List L} (hs : Began s)
    (hb : mget s.buffer head = some ls) (h : recEnd s head = .ok (s', r)) : r = some ls := by
  unfold recEnd at h
  split at h
  · rename_i hw
    rw [(hs hw).1] at hb
    cases hb
  · cases h
  · split at h
    · cases h
    · cases h; exact hb

/-! ### Reading -/

theorem readJsonL_congr {c : Compr} {exts : List PathExt} {folder : Str} {inv : Inv} {fs fs' : FS} {name v : Str}
    {cfg : MetaCfg} (h : ∀ ext p, comprExt cfg.compress = some ext → jsonlTarget exts folder inv name v ext cfg = .ok p →
      mget fs' p = mget fs p) :
    readJsonL c exts folder inv fs' name v cfg = readJsonL c exts folder inv fs name v cfg := by
  unfold readJsonL
  cases hx : comprExt cfg.compress with
  | none => rfl
  | some ext =>
    simp only
    cases ht : jsonlTarget exts folder inv name v ext cfg with
    | error e => rfl
    | ok p => rw [res_bind_ok, res_bind_ok, h ext p hx ht]

/-- The end of an update stores the records of the version so that they are read again. -/
theorem fsEndUpdate_stored {M : Type} {x : FsExt M} {k : FsStore M} {s : RecSt (FsLine M)} {o : Obj} {n : Nat}
    {subs : List SubPathExt} {ls : List (FsLine M)} {d : Bytes} (hw : WF o.inv n) (hn : 0 < n)
    (hwr : o.inv.writeable = true) (hcd : ValidComp o.inv.contentDir) (ha : '/' ∉ o.inv.digestAlg)
    (hx : k.exts = subs.map SubPathExt.toPathExt) (hf : MetaFindable subs k.cfg) (hcl : MetaClean subs k.cfg)
    (hc : k.c.Ok) (hd : k.c.unbr (k.enc ls) = some d) (hs : Began s) (hb : mget s.buffer o.inv.head = some ls)
    (herr : (fsEndUpdate x k s o).err = none) (hm : (fsEndUpdate x k s o).obj.inv.modified = true) (fs : FS) :
    readJsonL k.c k.exts k.folder (fsEndUpdate x k s o).obj.inv (applyOps fs (fsEndUpdate x k s o).obj.trace)
      "filesystem".toList o.inv.head k.cfg = .ok d := by
  unfold fsEndUpdate at herr hm ⊢
  rw [hwr] at herr hm ⊢
  simp only [Bool.true_eq_false, if_false] at herr hm ⊢
  split at herr
  · rename_i h
    rw [if_pos h] at hm
    rw [h] at hm
    cases hm
  · rename_i hmod
    rw [if_neg hmod]
    have he : HeadOnly o.inv (if o.echo then objEcho x.w o else ok o).obj.inv ∧
        (if o.echo then objEcho x.w o else ok o).obj.inv.modified = true ∧
        WF (if o.echo then objEcho x.w o else ok o).obj.inv n := by
      obtain ⟨ops, h1, h2⟩ := (echoIf_step (w := x.w) (U := fun _ _ => True) (o := o)).inv
      refine ⟨(echoIf_step (w := x.w) (U := fun _ _ => True) (o := o)).headOnly, run_modified h1 (by simpa using hmod), ?_⟩
      have := run_wf hw h1
      rw [h2] at this
      exact this
    split at herr
    · cases herr
    · rename_i o1 ho1
      rw [ho1] at he
      obtain ⟨he1, he2, he3⟩ := he
      simp only at he1 he2 he3 ⊢
      have hcd1 : ValidComp o1.inv.contentDir := by
        unfold Inv.contentDir at hcd ⊢; rw [he1.cdir]; exact hcd
      unfold fsAfterUpdate at herr ⊢
      cases hr : recEnd s o1.inv.head with
      | error e => simp only [hr] at herr; cases herr
      | ok r =>
        obtain ⟨s', r⟩ := r
        have hl := recEnd_some hs (by rw [he1.head]; exact hb) hr
        subst hl
        simp only [hr] at herr ⊢
        cases hwj : (writeJsonL x.w k.c k.exts k.folder o1 "filesystem".toList (k.enc ls) k.cfg).err with
        | some e => simp only [hwj] at herr; cases herr
        | none =>
          simp only [hwj] at herr ⊢
          have hm2 := writeJsonL_modified (w := x.w) (c := k.c) (exts := k.exts) (folder := k.folder)
            (name := "filesystem".toList) (b := k.enc ls) (cfg := k.cfg) he2
          obtain ⟨ext, data, p, h1, h2, h3, h4, h5⟩ := writeJsonL_spec hwj
          have hrd : readJsonL k.c k.exts k.folder
              (writeJsonL x.w k.c k.exts k.folder o1 "filesystem".toList (k.enc ls) k.cfg).obj.inv
              (applyOps fs (writeJsonL x.w k.c k.exts k.folder o1 "filesystem".toList (k.enc ls) k.cfg).obj.trace)
              "filesystem".toList o1.inv.head k.cfg = .ok d := by
            rw [hx] at hwj ⊢
            exact C61_found_again_partial hc fs he3 hn hcd1 (by decide) hf hd hwj
          generalize hg : writeJsonL x.w k.c k.exts k.folder o1 "filesystem".toList (k.enc ls) k.cfg = g at *
          rw [show withInv g.obj (clean g.obj.inv) = ok g.obj by rw [clean_modified hm2]; rfl, andThen_ok]
          obtain ⟨i1, _, t, i2, i3⟩ := storeInventory_trace (w := x.w) (o := g.obj) (v := true) (r := false)
          rw [i1, i2, applyOps_append, ← hrd, he1.head]
          refine readJsonL_congr (fun ext' p' hx' hp' => mget_applyOps_ne (fun op hop => ?_))
          rw [jsonlTarget_congr h5.cdir, ← he1.head, hx] at hp'
          have hne := target_not_inventory (alg := g.obj.inv.digestAlg) he3 hn hcd1 (by decide) (comprExt_noSlash hx') hf hcl
            (by rw [h5.alg, he1.alg]; exact ha) hp'
          rcases i3 op hop with ⟨h, _⟩ | ⟨_, h | h⟩
          · cases h
          · rw [h, h5.head]; exact fun h' => hne.1 h'.symm
          · rw [h, h5.head]; exact fun h' => hne.2 h'.symm

/-- **C107, by another process**: what an update recorded for the new version is read from the object by every process that
starts afterwards, under the settings of `MetaFindable`. -/
theorem C107_read_back_partial {M : Type} {x : FsExt M} {k : FsStore M} {inv : Inv} {n : Nat} {v : VInfo}
    {echo checkDup : Bool} {area : Str} {es : List SrcEntry} {subs : List SubPathExt} {ls : List (FsLine M)} (fs : FS)
    (hw : WF inv n) (hcd : ValidComp inv.contentDir) (ha : '/' ∉ inv.digestAlg)
    (hx : k.exts = subs.map SubPathExt.toPathExt) (hf : MetaFindable subs k.cfg) (hcl : MetaClean subs k.cfg)
    (hc : k.c.Ok) (hk : ∃ d, k.c.unbr (k.enc ls) = some d ∧ k.dec d = .ok ls)
    (he : (fsUpdate x k inv v echo checkDup area es).err = none)
    (hm : (fsUpdate x k inv v echo checkDup area es).obj.inv.modified = true)
    (hb : mget (fsUpdate x k inv v echo checkDup area es).st.buffer
      (fsUpdate x k inv v echo checkDup area es).obj.inv.head = some ls) :
    RecordsOf k recNew (fsUpdate x k inv v echo checkDup area es).obj.inv
      (applyOps fs (fsUpdate x k inv v echo checkDup area es).obj.trace)
      (fsUpdate x k inv v echo checkDup area es).obj.inv.head ls := by
  obtain ⟨d, hd, hdec⟩ := hk
  refine Or.inr ⟨rfl, d, ?_, hdec⟩
  unfold fsUpdate at he hm hb ⊢
  split at he
  · cases he
  · rename_i o ho
    obtain ⟨i, hi, rfl⟩ := startUpdate_ok ho
    have hw1 := newVersion_ok_gapFree hw.1 hw.2 hi
    have hfr := newVersion_frame hi
    simp only [ho] at hm hb ⊢
    split at he
    · cases he
    · rename_i s o' ho'
      simp only [ho'] at hm hb ⊢
      have ht := addTree_onlyAdds (x := x) (c := checkDup) (area := area) es (s := recNew) (o := ⟨i, [], echo, []⟩) hw1
      have hbg := began_addTree (x := x) (c := checkDup) (area := area) es (s := recNew) (o := ⟨i, [], echo, []⟩) hw1
        (wf_head_valid hw1 (Nat.succ_pos n)).1 (fun _ => ⟨rfl, rfl⟩)
      rw [ho'] at ht hbg
      simp only at ht hbg
      obtain ⟨e1, _⟩ := fsEndUpdate_head (ht.wf _ hw1).1 (Nat.succ_pos n) he
      rw [e1] at hb ⊢
      rw [fsEndUpdate_buffer] at hb
      exact fsEndUpdate_stored (subs := subs) (ht.wf _ hw1) (Nat.succ_pos n)
        (by rw [ht.inv.wr]; exact hfr.2.2.2.1)
        (by unfold Inv.contentDir at hcd ⊢; rw [ht.inv.cdir, show (Obj.mk i [] echo []).inv = i from rfl, hfr.1]; exact hcd)
        (by rw [ht.inv.alg, show (Obj.mk i [] echo []).inv = i from rfl, hfr.2.2.1]; exact ha) hx hf hcl hc hd hbg hb he hm fs

/-- every file added without the check for duplicates has its line in the buffer of the new version -/
theorem fsUpdate_recorded {M : Type} {x : FsExt M} {k : FsStore M} {inv : Inv} {n : Nat} {v : VInfo} {echo : Bool}
    {area : Str} {es : List SrcEntry} (hw : WF inv n) (he : (fsUpdate x k inv v echo false area es).err = none)
    {p : Str} {d : Bytes} (hp : .file p d ∈ es) :
    ∃ q m ls, x.w.statePath p area = .ok q ∧ x.stat p = .ok m ∧
      mget (fsUpdate x k inv v echo false area es).st.buffer (fsUpdate x k inv v echo false area es).obj.inv.head = some ls ∧
      (⟨q, (fsUpdate x k inv v echo false area es).obj.inv.head, m⟩ : FsLine M) ∈ ls ∧
      (mkeys (fsUpdate x k inv v echo false area es).obj.inv.versions).Nodup ∧
      (fsUpdate x k inv v echo false area es).obj.inv.head ∈ mkeys (fsUpdate x k inv v echo false area es).obj.inv.versions := by
  unfold fsUpdate at he ⊢
  split at he
  · cases he
  · rename_i o ho
    obtain ⟨i, hi, rfl⟩ := startUpdate_ok ho
    have hw1 := newVersion_ok_gapFree hw.1 hw.2 hi
    split at he
    · cases he
    · rename_i s o' ho'
      have ha := addTree_onlyAdds (x := x) (c := false) (area := area) es (s := recNew) (o := ⟨i, [], echo, []⟩) hw1
      obtain ⟨q, m, h1, h2, h3⟩ := addTree_files (x := x) (area := area) es (s := recNew)
        (o := ⟨i, [], echo, []⟩) hw1 (by rw [ho']) p d hp
      rw [ho'] at ha h3
      simp only at ha h3
      obtain ⟨e1, e2, e3⟩ := fsEndUpdate_head (ha.wf _ hw1).1 (Nat.succ_pos n) he
      rw [fsEndUpdate_buffer, e1]
      have hh : o'.inv.head = i.head := ha.inv.head
      unfold recLines at h3
      rw [← hh] at h3
      cases hb : mget s.buffer o'.inv.head with
      | none => rw [hb] at h3; cases h3
      | some ls =>
        rw [hb] at h3
        exact ⟨q, m, ls, h1, h2, rfl, h3, e2, e3⟩

/-- **C107 for the files of an update**, as reported by a process that starts afterwards and has the object only. -/
theorem C107_files_reported_later_partial {M : Type} {x : FsExt M} {k : FsStore M} {inv : Inv} {n : Nat} {v : VInfo}
    {echo : Bool} {area : Str} {es : List SrcEntry} {subs : List SubPathExt} {fs : FS} {r : List (Str × FsLine M)}
    (hw : WF inv n) (hcd : ValidComp inv.contentDir) (ha : '/' ∉ inv.digestAlg)
    (hx : k.exts = subs.map SubPathExt.toPathExt) (hf : MetaFindable subs k.cfg) (hcl : MetaClean subs k.cfg) (hc : k.c.Ok)
    (he : (fsUpdate x k inv v echo false area es).err = none)
    (hk : ∀ ls, mget (fsUpdate x k inv v echo false area es).st.buffer
      (fsUpdate x k inv v echo false area es).obj.inv.head = some ls → ∃ d, k.c.unbr (k.enc ls) = some d ∧ k.dec d = .ok ls)
    (hm : (fsUpdate x k inv v echo false area es).obj.inv.modified = true)
    (hr : fsMetadata k recNew (fsUpdate x k inv v echo false area es).obj.inv
      (applyOps fs (fsUpdate x k inv v echo false area es).obj.trace) = .ok r)
    {p q dg : Str} {d : Bytes} (hp : .file p d ∈ es) (hq : x.w.statePath p area = .ok q)
    (hfile : HasFile (fsUpdate x k inv v echo false area es).obj.inv
      (fsUpdate x k inv v echo false area es).obj.inv.head q dg) :
    ∃ m, x.stat p = .ok m ∧ (dg, ⟨q, (fsUpdate x k inv v echo false area es).obj.inv.head, m⟩) ∈ r := by
  obtain ⟨q', m, ls, h1, h2, h3, h4, h5, h6⟩ := fsUpdate_recorded hw he hp
  rw [hq] at h1
  cases h1
  refine ⟨m, h2, (C107_reported_exact h5 hr).2 ⟨_, h6, ls, ?_, h4, hfile⟩⟩
  exact C107_read_back_partial fs hw hcd ha hx hf hcl hc (hk ls h3) he hm h3

/-! ### Example -/

/-- lines as bytes: path, 0, version, 0, number -/
def encLines : List (FsLine Nat) → Bytes
  | [] => []
  | l :: ls => asBytes l.path ++ 0 :: (asBytes l.version ++ 0 :: l.info.toUInt8 :: encLines ls)

/-- reading them; `acc`, `p`: the characters and the path read so far -/
def decLines (acc : Str) (p : Option Str) : Bytes → List (FsLine Nat)
  | [] => []
  | b :: bs =>
    if b ≠ 0 then decLines (acc ++ [Char.ofNat b.toNat]) p bs
    else
      match p with
      | none => decLines [] (some acc) bs
      | some q =>
        match bs with
        | [] => []
        | m :: rest => ⟨q, acc, m.toNat⟩ :: decLines [] none rest

/-- the records, compressed, in the area `metadata` of the object -/
def exFsStore2 : FsStore Nat := ⟨exCompr, [exSub.toPathExt], "NNNN-filesystem".toList, exMetaCfg,
  fun ls => 1 :: encLines ls, fun b => .ok (decLines [] none b)⟩

def exRead : FsOut Nat := fsUpdate exFs4 exFsStore2 exInv ⟨[], [], [], []⟩ false false [] exKnown

example : exRead.err = none ∧ exRead.obj.inv.modified = true ∧
    mget exRead.st.buffer exRead.obj.inv.head =
      some [⟨"n".toList, "v3".toList, 1⟩, ⟨"c".toList, "v3".toList, 1⟩] := by decide

theorem exSub_findable : MetaFindable [exSub] exMetaCfg :=
  Or.inr (Or.inr ⟨exSub, rfl, Or.inl ⟨rfl, exSub_clean, by decide, by decide⟩⟩)

/-- both lines are read by another process -/
example : RecordsOf exFsStore2 recNew exRead.obj.inv (applyOps [] exRead.obj.trace) exRead.obj.inv.head
    [⟨"n".toList, "v3".toList, 1⟩, ⟨"c".toList, "v3".toList, 1⟩] :=
  C107_read_back_partial (x := exFs4) (k := exFsStore2) (es := exKnown) (subs := [exSub]) [] exInv_wf2 exInv_contentDir
    (by decide) rfl exSub_findable ⟨by intro h; exact absurd h (by decide), by intro h; exact absurd h (by decide)⟩ exCompr_ok
    ⟨_, rfl, by decide⟩ (by decide) (by decide) (by decide)

end Gocfl
