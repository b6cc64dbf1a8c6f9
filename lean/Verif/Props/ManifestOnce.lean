import Verif.Props.ContentMatch
import Verif.Props.CleanVersion

/-!
# C88: the manifest lists each content path once

OCFL demands that a content path occurs only once in the manifest.  The exact account of what a session adds to the
list of content paths, hence when it stays free of repetitions, and the calls that make it repeat.
-/

namespace Gocfl

/-! ## Specification -/

/-- all content paths in the manifest, with repetitions -/
def contentPaths (inv : Inv) : List Str := inv.manifest.flatMap (·.2)

/-- no content path occurs twice, under one digest or two -/
def ListedOnce (inv : Inv) : Prop := (contentPaths inv).Nodup

/-- the content path a call of an update builds, once for every name given -/
def listedCall (w : World) (inv : Inv) : Call → List Str
  | .add p a _ _ => (targetOf w inv (p, a)).toList
  | .reader fs a _ => fs.flatMap (fun _ => (targetOf w inv (fs.headD [], a)).toList)
  | _ => []

def listedCalls (w : World) (inv : Inv) (cs : List Call) : List Str := cs.flatMap (listedCall w inv)

/-- what the automatic versions after version `k` list -/
def listedRounds (w : World) (inv : Inv) : Nat → List Round → List Str
  | _, [] => []
  | k, r :: rs => listedCalls w { inv with head := verName inv.paddingLength ((k + 1 : Nat) : Int) }
      (r.before ++ (r.body ++ r.after)) ++ listedRounds w inv (k + 1) rs

/-- what a session on an object of `n` versions lists, given where it opens version `n + 1` -/
def listedSession (w : World) (inv : Inv) (n : Nat) (s : Session) : List Str :=
  listedRounds w inv n (⟨s.info, s.before, s.body, s.after⟩ :: s.rounds)

/-- **C88, in full** (false): on an object whose manifest lists each content path once, below one of its versions, any
session adding files under distinct content paths leaves a manifest that lists each content path once. -/
def C88_full : Prop :=
  ∀ (w : World) (inv : Inv) (n : Nat) (s : Session), WF inv n → (mkeys inv.manifest).Nodup → ValidComp inv.contentDir →
    (∀ p ∈ contentPaths inv, VersionFile inv n p) → SafeNames w s → s.rounds = [] →
    (targets w { inv with head := verName inv.paddingLength ((n + 1 : Nat) : Int) } (s.before ++ s.body ++ s.after)).Nodup →
    (session w inv s).err = none → ListedOnce inv → ListedOnce (session w inv s).obj.inv

/-! ## One operation -/

theorem flatMap_mset_perm {m : DMap} (hn : (mkeys m).Nodup) (d p : Str) :
    ((mset m d (mgetD m d ++ [p])).flatMap (·.2)).Perm (m.flatMap (·.2) ++ [p]) := by
  induction m with
  | nil => simp [mset, mgetD, mget]
  | cons e m ih =>
    obtain ⟨k, v⟩ := e
    simp only [mkeys, List.map_cons, List.nodup_cons] at hn
    unfold mset mgetD mget
    by_cases hk : k = d
    · subst hk
      simp only [if_true, Option.getD_some, List.flatMap_cons]
      rw [List.append_assoc, List.append_assoc]
      exact List.Perm.append_left _ List.perm_append_comm
    · simp only [if_neg hk, List.flatMap_cons]
      rw [List.append_assoc]
      exact List.Perm.append_left _ (ih hn.2)

/-- **Exact account of adding a file**: its content path is listed once more for every name given. -/
theorem C88_add_exact {inv inv' : Inv} {ns : List Str} {mp : Str} {cs : AMap Str Str} (hk : (mkeys inv.manifest).Nodup)
    (hmp : mp ≠ []) (ha : addFile inv ns mp cs = .ok inv') :
    (contentPaths inv').Perm (contentPaths inv ++ List.replicate ns.length mp) ∧ (mkeys inv'.manifest).Nodup := by
  obtain ⟨dig, hd, h⟩ := addFile_ok ha
  clear ha
  obtain ⟨_, _, hm, _⟩ := addFixity_fold inv mp cs
  generalize cs.foldl (fun i c => addFixity i mp c) inv = i0 at h hm
  have h0 : contentPaths inv = contentPaths i0 := by unfold contentPaths; rw [hm]
  rw [h0]
  rw [← hm] at hk
  clear hm h0
  induction ns generalizing i0 with
  | nil => cases h; exact ⟨by simp, hk⟩
  | cons n ns ih =>
    rw [List.foldlM_cons] at h
    obtain ⟨i1, h1, h⟩ := res_bind_eq_ok.1 h
    obtain ⟨_, _, _, _, _, _, _, hm1, _⟩ := addName_ok h1
    obtain ⟨ih1, ih2⟩ := ih i1 (by rw [hm1]; exact manAdd_nodup hk _ _) h
    refine ⟨ih1.trans ?_, ih2⟩
    have : (contentPaths i1).Perm (contentPaths i0 ++ [mp]) := by
      unfold contentPaths
      rw [hm1]
      unfold manAdd
      rw [if_pos hmp]
      exact flatMap_mset_perm hk _ _
    rw [List.length_cons, List.replicate_succ]
    have := this.append_right (List.replicate ns.length mp)
    simpa using this

/-! ## Calls and sessions -/

/-- from `i` to `j` some of the paths in `T` are added to the list -/
def Adds (T : List Str) (i j : Inv) : Prop :=
  (mkeys i.manifest).Nodup → (mkeys j.manifest).Nodup ∧
    ∃ l, l.Sublist T ∧ (contentPaths j).Perm (contentPaths i ++ l)

theorem Adds.same {T : List Str} {i j : Inv} (h : j.manifest = i.manifest) : Adds T i j := fun hk =>
  ⟨by rw [h]; exact hk, [], List.nil_sublist _, by unfold contentPaths; rw [h]; simp⟩

theorem Adds.trans {T T' : List Str} {i j k : Inv} (h : Adds T i j) (h' : Adds T' j k) : Adds (T ++ T') i k := by
  intro hk
  obtain ⟨h1, l, hl, hp⟩ := h hk
  obtain ⟨h2, l', hl', hp'⟩ := h' h1
  exact ⟨h2, l ++ l', hl.append hl', hp'.trans (by rw [← List.append_assoc]; exact hp.append_right l')⟩

theorem Adds.of_same {T : List Str} {i j k : Inv} (h : j.manifest = i.manifest) (h' : Adds T j k) : Adds T i k := by
  have := (Adds.same (T := []) h).trans h'
  simpa using this

theorem adds_andThen {T T' : List Str} {i : Inv} {x : Out} {f : Obj → Out} (h : Adds T i x.obj.inv)
    (h' : x.err = none → Adds T' x.obj.inv (f x.obj).obj.inv) : Adds (T ++ T') i (x.andThen f).obj.inv := by
  cases he : x.err with
  | none => rw [andThen_none he]; exact h.trans (h' he)
  | some e => rw [andThen_some he]; exact h.trans (Adds.same rfl)

theorem adds_withInv {T : List Str} {o : Obj} {r : Res Inv} (h : ∀ i, r = .ok i → i.manifest = o.inv.manifest) :
    Adds T o.inv (withInv o r).obj.inv := by
  unfold withInv
  cases r with
  | error e => exact Adds.same rfl
  | ok i => exact Adds.same (h i rfl)

theorem adds_addReader {w : World} {o : Obj} {names : List Str} {mp : Str} {data : Bytes} (hmp : mp ≠ []) :
    Adds (List.replicate names.length mp) o.inv (addReader w o names mp data).obj.inv := by
  unfold addReader
  simp only
  split
  · exact Adds.same rfl
  · rename_i cs hcs
    unfold withInv
    cases hf : addFile o.inv names mp cs with
    | error e => exact Adds.same rfl
    | ok i =>
      intro hk
      obtain ⟨h1, h2⟩ := C88_add_exact hk hmp hf
      exact ⟨h2, _, List.Sublist.refl _, h1⟩

theorem adds_ifExists {T : List Str} {o : Obj} {p d : Str} {f : Inv → Res Inv}
    (hm : ∀ i j, f i = .ok j → j.manifest = i.manifest) : Adds T o.inv (objIfExists o p d f).obj.inv := by
  unfold objIfExists
  split
  · exact Adds.same rfl
  · split
    · exact Adds.same rfl
    · exact Adds.same rfl
    · exact adds_withInv (fun i hi => hm _ _ hi)

theorem adds_echo {T : List Str} {w : World} {o : Obj} : Adds T o.inv (if o.echo then objEcho w o else ok o).obj.inv := by
  split
  · unfold objEcho
    split
    · exact Adds.same rfl
    · exact adds_withInv (o := { o with updateFiles := slicesCompact (sortStr o.updateFiles) })
        (fun i hi => echoDelete_manifest hi)
  · exact Adds.same rfl

theorem mapM_length {α β : Type} {f : α → Res β} {l : List α} {r : List β} (h : l.mapM f = .ok r) : r.length = l.length := by
  induction l generalizing r with
  | nil => cases h; rfl
  | cons a l ih =>
    rw [List.mapM_cons] at h
    obtain ⟨b, _, h⟩ := res_bind_eq_ok.1 h
    obtain ⟨bs, hbs, h⟩ := res_bind_eq_ok.1 h
    cases h
    simp [ih hbs]

theorem adds_call {w : World} {o : Obj} (c : Call) : Adds (listedCall w o.inv c) o.inv (runCall w o c).obj.inv := by
  cases c with
  | add p a data cd =>
    show Adds _ o.inv (objAdd w o p a data cd).obj.inv
    unfold objAdd
    split
    · exact Adds.same rfl
    · split
      · exact Adds.same rfl
      · rename_i names mp hb
        obtain ⟨_, i, hi, hmp⟩ := buildNames_ok hb
        have hlen : names.length = 1 := by
          unfold buildNames at hb
          obtain ⟨ns, hns, hb⟩ := res_bind_eq_ok.1 hb
          obtain ⟨j, hj, hb⟩ := res_bind_eq_ok.1 hb
          cases hb
          exact mapM_length hns
        have hi : w.manifestPath p a = .ok i := hi
        have ht : listedCall w o.inv (.add p a data cd) = List.replicate names.length mp := by
          simp [listedCall, targetOf, hi, hmp, hlen]
        rw [ht]
        have hne : mp ≠ [] := by rw [hmp]; exact C13_content_path_ne_nil _ _
        simp only
        split
        · split
          · exact Adds.same rfl
          · unfold addChecked
            split
            · exact Adds.same rfl
            · exact Adds.same rfl
            · split
              · exact adds_withInv (o := { o with updateFiles := o.updateFiles ++ [names.headD []] })
                  (fun i hi => copyFile_manifest hi)
              · exact adds_addReader (o := { o with updateFiles := o.updateFiles ++ [names.headD []] }) hne
        · exact adds_addReader (o := { o with updateFiles := o.updateFiles ++ [names.headD []] }) hne
  | reader fs a data =>
    show Adds _ o.inv (objAddReader w o fs a data).obj.inv
    unfold objAddReader
    split
    · exact Adds.same rfl
    · split
      · exact Adds.same rfl
      · split
        · exact Adds.same rfl
        · rename_i names mp hb
          obtain ⟨_, i, hi, hmp⟩ := buildNames_ok hb
          have hlen : names.length = fs.length := by
            unfold buildNames at hb
            obtain ⟨ns, hns, hb⟩ := res_bind_eq_ok.1 hb
            obtain ⟨j, hj, hb⟩ := res_bind_eq_ok.1 hb
            cases hb
            exact mapM_length hns
          have hgen : ∀ l : List Str, l.flatMap (fun _ => [mp]) = List.replicate l.length mp := by
            intro l
            induction l with
            | nil => rfl
            | cons x l ih => rw [List.flatMap_cons, ih]; rfl
          have ht : listedCall w o.inv (.reader fs a data) = List.replicate names.length mp := by
            simp only [listedCall, targetOf, hi, ← hmp, Option.toList_some]
            rw [hgen, hlen]
          rw [ht]
          exact adds_addReader (by rw [hmp]; exact C13_content_path_ne_nil _ _)
  | delete p d => exact adds_ifExists (fun i j h => deleteFile_manifest h)
  | rename a b d => exact adds_ifExists (fun i j h => renameFile_manifest h)
  | beginArea => exact Adds.same rfl
  | endArea =>
    unfold runCall
    exact adds_andThen (T := []) (T' := []) adds_echo (fun _ => Adds.same rfl)
  | ext n d => exact Adds.same rfl

theorem targetOf_congr {w : World} {a b : Inv} (h1 : b.head = a.head) (h2 : b.contentDirectory = a.contentDirectory)
    (x : Str × Str) : targetOf w b x = targetOf w a x := by
  unfold targetOf buildManifestName buildManifestNameVersion Inv.contentDir
  rw [h1, h2]

theorem listedCalls_congr {w : World} {a b : Inv} (h1 : b.head = a.head) (h2 : b.contentDirectory = a.contentDirectory)
    (cs : List Call) : listedCalls w b cs = listedCalls w a cs := by
  unfold listedCalls
  have : listedCall w b = listedCall w a := by
    funext c
    cases c <;> simp only [listedCall, targetOf_congr h1 h2]
  rw [this]

theorem listedCalls_append {w : World} {a : Inv} (cs cs' : List Call) :
    listedCalls w a (cs ++ cs') = listedCalls w a cs ++ listedCalls w a cs' := by
  simp [listedCalls]

theorem adds_calls {w : World} {o : Obj} (cs : List Call) : Adds (listedCalls w o.inv cs) o.inv (runCalls w o cs).obj.inv := by
  induction cs generalizing o with
  | nil => exact Adds.same rfl
  | cons c cs ih =>
    unfold runCalls
    have hh := (runCall_step (w := w) (U := fun _ _ => True) (o := o) c (fun _ _ => trivial)).headOnly
    rw [show listedCalls w o.inv (c :: cs) = listedCall w o.inv c ++ listedCalls w o.inv cs by simp [listedCalls],
      ← listedCalls_congr hh.head hh.cdir cs]
    exact adds_andThen (adds_call c) (fun _ => ih)

theorem adds_endUpdate {w : World} {inv0 : Inv} {rounds : List Round} {o : Obj} {n : Nat} {after : List Call} (h : WF o.inv n)
    (hp : o.inv.paddingLength = inv0.paddingLength) (hd : o.inv.contentDirectory = inv0.contentDirectory) :
    Adds (listedCalls w o.inv after ++ listedRounds w inv0 n rounds) o.inv (endUpdate w o after rounds).obj.inv := by
  induction rounds generalizing o n after with
  | nil =>
    unfold endUpdate
    split
    · exact Adds.same rfl
    · split
      · exact Adds.same rfl
      · rename_i hm
        have hs := echoIf_step (w := w) (U := fun _ _ => True) (o := o)
        refine (adds_andThen (T := []) (T' := listedCalls w o.inv after ++ []) adds_echo (fun _ => ?_))
        rw [← listedCalls_congr hs.headOnly.head hs.headOnly.cdir]
        refine adds_andThen (adds_calls after) (fun _ => ?_)
        have hm1 := hs.modified (not_false_iff hm)
        have hm2 := (runCalls_step (w := w) (U := fun _ _ => True)
          (o := (if o.echo then objEcho w o else ok o).obj) after (fun _ _ _ _ => trivial)).modified hm1
        unfold withInv
        rw [clean_modified hm2, andThen_none rfl, storeInventory_trace.1]
        exact Adds.same rfl
  | cons r rs ih =>
    unfold endUpdate
    split
    · exact Adds.same rfl
    · split
      · exact Adds.same rfl
      · rename_i hm
        have hs := echoIf_step (w := w) (U := fun _ _ => True) (o := o)
        have hw1 := echo_wf (w := w) h
        refine (adds_andThen (T := []) (T' := listedCalls w o.inv after ++ listedRounds w inv0 n (r :: rs)) adds_echo
          (fun _ => ?_))
        rw [← listedCalls_congr hs.headOnly.head hs.headOnly.cdir]
        have hp1 := hs.headOnly.pad.trans hp
        have hd1 := hs.headOnly.cdir.trans hd
        have hm1 := hs.modified (not_false_iff hm)
        revert hw1 hp1 hd1 hm1
        generalize (if o.echo then objEcho w o else ok o).obj = o1
        intro hw1 hp1 hd1 hm1
        refine adds_andThen (adds_calls after) (fun _ => ?_)
        have hs2 := runCalls_step (w := w) (U := fun _ _ => True) (o := o1) after (fun _ _ _ _ => trivial)
        have hw2 := calls_wf (w := w) hw1.1 after
        have hm2 := hs2.modified hm1
        have hp2 := hs2.headOnly.pad.trans hp1
        have hd2 := hs2.headOnly.cdir.trans hd1
        revert hw2 hm2 hp2 hd2
        generalize (runCalls w o1 after).obj = o2
        intro hw2 hm2 hp2 hd2
        have hcl : withInv o2 (clean o2.inv) = ok o2 := by unfold withInv; rw [clean_modified hm2]; rfl
        rw [hcl, andThen_none rfl]
        have hi3 := (storeInventory_trace (w := w) (o := o2) (v := true) (r := false)).1
        refine (adds_andThen (T := []) (T' := listedRounds w inv0 n (r :: rs)) (Adds.same (congrArg Inv.manifest hi3)) (fun _ => ?_))
        have hi3' : (storeInventory w (ok o2).obj true false).obj.inv = o2.inv := hi3
        revert hi3'
        generalize (storeInventory w (ok o2).obj true false).obj = o3
        intro hi3'
        unfold listedRounds startUpdate withInv
        cases hnv : newVersion o3.inv r.info.msg r.info.userName r.info.userAddress r.info.now with
        | error e => exact Adds.same rfl
        | ok i =>
          simp only
          rw [andThen_none (x := ⟨⟨i, o3.updateFiles, false, o3.trace⟩, none⟩) rfl]
          have hf := newVersion_frame hnv
          have hwi : WF i (n + 1) := newVersion_ok_gapFree (hi3'.symm ▸ hw2.1.1) (hi3'.symm ▸ hw2.1.2) hnv
          have hpi : i.paddingLength = inv0.paddingLength := hf.2.1.trans (hi3'.symm ▸ hp2)
          have hdi : i.contentDirectory = inv0.contentDirectory := hf.1.trans (hi3'.symm ▸ hd2)
          have hhi : i.head = verName inv0.paddingLength ((n + 1 : Nat) : Int) := by
            have := hwi.1.head_eq (Nat.succ_pos n)
            rw [hpi] at this
            exact this
          refine Adds.of_same hf.2.2.2.2.2.1 ?_
          rw [listedCalls_append, listedCalls_append, List.append_assoc, List.append_assoc]
          have hcg : ∀ cs, listedCalls w { inv0 with head := verName inv0.paddingLength ((n + 1 : Nat) : Int) } cs =
              listedCalls w i cs := fun cs => (listedCalls_congr (a := { inv0 with head := verName inv0.paddingLength ((n + 1 : Nat) : Int) }) hhi hdi cs).symm
          rw [hcg, hcg, hcg]
          have hsb := runCalls_step (w := w) (U := fun _ _ => True) (o := ⟨i, o3.updateFiles, false, o3.trace⟩) r.before
            (fun _ _ _ _ => trivial)
          have hwb := calls_wf (w := w) (o := ⟨i, o3.updateFiles, false, o3.trace⟩) hwi r.before
          refine adds_andThen (adds_calls (o := ⟨i, o3.updateFiles, false, o3.trace⟩) r.before) (fun _ => ?_)
          have hcb : ∀ cs, listedCalls w i cs =
              listedCalls w (runCalls w ⟨i, o3.updateFiles, false, o3.trace⟩ r.before).obj.inv cs := fun cs =>
            (listedCalls_congr hsb.headOnly.head hsb.headOnly.cdir cs).symm
          rw [hcb, hcb]
          have hpb := hsb.headOnly.pad.trans hpi
          have hdb := hsb.headOnly.cdir.trans hdi
          revert hwb hpb hdb
          generalize (runCalls w ⟨i, o3.updateFiles, false, o3.trace⟩ r.before).obj = o4
          intro hwb hpb hdb
          refine adds_andThen (adds_calls r.body) (fun _ => ?_)
          have hsc := runCalls_step (w := w) (U := fun _ _ => True) (o := o4) r.body (fun _ _ _ _ => trivial)
          have hwc := calls_wf (w := w) hwb.1 r.body
          rw [← listedCalls_congr hsc.headOnly.head hsc.headOnly.cdir]
          exact ih hwc.1 (hsc.headOnly.pad.trans hpb) (hsc.headOnly.cdir.trans hdb)

/-- **What a session lists**: of the content paths its calls build, some are added to those listed; nothing else
changes. -/
theorem C88_session_adds {w : World} {inv : Inv} {n : Nat} (h : WF inv n) (hk : (mkeys inv.manifest).Nodup) (s : Session) :
    ∃ l, l.Sublist (listedSession w inv n s) ∧ (contentPaths (session w inv s).obj.inv).Perm (contentPaths inv ++ l) := by
  have key : Adds (listedSession w inv n s) inv (session w inv s).obj.inv := by
    have h0 : Adds (listedSession w inv n s ++ []) inv (session w inv s).obj.inv := by
      unfold session
      refine adds_andThen ?_ (fun _ => ?_)
      · unfold sessionOpen listedSession listedRounds startUpdate withInv
        cases hnv : newVersion inv s.info.msg s.info.userName s.info.userAddress s.info.now with
        | error e => exact Adds.same rfl
        | ok i =>
          simp only
          rw [andThen_none (x := ⟨⟨i, [], s.echo, []⟩, none⟩) rfl]
          have hf := newVersion_frame hnv
          have hwi : WF i (n + 1) := newVersion_ok_gapFree h.1 h.2 hnv
          have hhi : i.head = verName inv.paddingLength ((n + 1 : Nat) : Int) := by
            have := hwi.1.head_eq (Nat.succ_pos n)
            rw [hf.2.1] at this
            exact this
          refine Adds.of_same hf.2.2.2.2.2.1 ?_
          rw [listedCalls_append, listedCalls_append, List.append_assoc, List.append_assoc]
          have hcg : ∀ cs, listedCalls w { inv with head := verName inv.paddingLength ((n + 1 : Nat) : Int) } cs =
              listedCalls w i cs := fun cs => (listedCalls_congr (a := { inv with head := verName inv.paddingLength ((n + 1 : Nat) : Int) }) hhi hf.1 cs).symm
          rw [hcg, hcg, hcg]
          have hsb := runCalls_step (w := w) (U := fun _ _ => True) (o := ⟨i, [], s.echo, []⟩) s.before
            (fun _ _ _ _ => trivial)
          have hwb := calls_wf (w := w) (o := ⟨i, [], s.echo, []⟩) hwi s.before
          refine adds_andThen (adds_calls (o := ⟨i, [], s.echo, []⟩) s.before) (fun _ => ?_)
          have hcb : ∀ cs, listedCalls w i cs =
              listedCalls w (runCalls w ⟨i, [], s.echo, []⟩ s.before).obj.inv cs := fun cs =>
            (listedCalls_congr hsb.headOnly.head hsb.headOnly.cdir cs).symm
          rw [hcb, hcb]
          have hpb := hsb.headOnly.pad.trans hf.2.1
          have hdb := hsb.headOnly.cdir.trans hf.1
          revert hwb hpb hdb
          generalize (runCalls w ⟨i, [], s.echo, []⟩ s.before).obj = o4
          intro hwb hpb hdb
          refine adds_andThen (adds_calls s.body) (fun _ => ?_)
          have hsc := runCalls_step (w := w) (U := fun _ _ => True) (o := o4) s.body (fun _ _ _ _ => trivial)
          have hwc := calls_wf (w := w) hwb.1 s.body
          rw [← listedCalls_congr hsc.headOnly.head hsc.headOnly.cdir]
          exact adds_endUpdate hwc.1 (hsc.headOnly.pad.trans hpb) (hsc.headOnly.cdir.trans hdb)
      · rw [closeObj_inv]
        exact Adds.same rfl
    simpa using h0
  exact (key hk).2

theorem mem_listedCalls {w : World} {inv : Inv} {cs : List Call} {p : Str} (h : p ∈ listedCalls w inv cs) :
    ∃ x ∈ callsUses cs, ∃ i, w.manifestPath x.1 x.2 = .ok i ∧ p = buildManifestName inv i := by
  unfold listedCalls at h
  obtain ⟨c, hc, h⟩ := List.mem_flatMap.1 h
  have key : ∀ x : Str × Str, targetOf w inv x = some p → ∃ i, w.manifestPath x.1 x.2 = .ok i ∧ p = buildManifestName inv i := by
    intro x hx
    unfold targetOf at hx
    cases hi : w.manifestPath x.1 x.2 with
    | error e => rw [hi] at hx; cases hx
    | ok i => rw [hi] at hx; cases hx; exact ⟨i, rfl, rfl⟩
  unfold callsUses
  cases c with
  | add q a d cd =>
    have h : targetOf w inv (q, a) = some p := by simpa [listedCall] using h
    exact ⟨(q, a), List.mem_flatMap.2 ⟨_, hc, by simp [Call.uses]⟩, key _ h⟩
  | reader fs a d =>
    simp only [listedCall] at h
    obtain ⟨_, _, h⟩ := List.mem_flatMap.1 h
    have h : targetOf w inv (fs.headD [], a) = some p := by simpa using h
    exact ⟨(fs.headD [], a), List.mem_flatMap.2 ⟨_, hc, by simp [Call.uses]⟩, key _ h⟩
  | _ => cases h

theorem mem_listedVersion {w : World} {inv : Inv} {k : Nat} (hc : ValidComp inv.contentDir) {cs : List Call}
    (hs : ∀ x ∈ callsUses cs, ∀ i, w.manifestPath x.1 x.2 = .ok i → InsideName i) {p : Str}
    (h : p ∈ listedCalls w { inv with head := verName inv.paddingLength (k : Int) } cs) :
    topOf p = verName inv.paddingLength (k : Int) := by
  obtain ⟨x, hx, i, hi, rfl⟩ := mem_listedCalls h
  obtain ⟨j, hj⟩ := hs x hx i hi
  obtain ⟨l, h1, h2, h3⟩ := C13_content_path_inside_partial
    (inv := { inv with head := verName inv.paddingLength (k : Int) }) (verName_valid _ _) hc hj
  rw [h3]
  exact topOf_joinWith (verName_noSlash _ _) (by simp)

/-- a path listed by the versions after `n` is below one of them -/
theorem listedRounds_top {w : World} {inv : Inv} {n : Nat} (hc : ValidComp inv.contentDir) {rs : List Round}
    (hs : ∀ r ∈ rs, ∀ x ∈ callsUses (r.before ++ (r.body ++ r.after)), ∀ i, w.manifestPath x.1 x.2 = .ok i → InsideName i)
    {p : Str} (hp : p ∈ listedRounds w inv n rs) : ∃ k : Nat, n < k ∧ topOf p = verName inv.paddingLength (k : Int) := by
  induction rs generalizing n with
  | nil => cases hp
  | cons r rs ih =>
    unfold listedRounds at hp
    rcases List.mem_append.1 hp with hp | hp
    · exact ⟨n + 1, by omega, mem_listedVersion hc (hs r (by simp)) hp⟩
    · obtain ⟨k, h1, h2⟩ := ih (fun r hr => hs r (by simp [hr])) hp
      exact ⟨k, by omega, h2⟩

/-- in every version the content paths built are distinct, and no call names two files for one content -/
def OncePerVersion (w : World) (inv : Inv) : Nat → List Round → Prop
  | _, [] => True
  | k, r :: rs => (listedCalls w { inv with head := verName inv.paddingLength ((k + 1 : Nat) : Int) }
      (r.before ++ (r.body ++ r.after))).Nodup ∧ OncePerVersion w inv (k + 1) rs

theorem listedRounds_nodup {w : World} {inv : Inv} {n : Nat} (hc : ValidComp inv.contentDir) {rs : List Round}
    (hs : ∀ r ∈ rs, ∀ x ∈ callsUses (r.before ++ (r.body ++ r.after)), ∀ i, w.manifestPath x.1 x.2 = .ok i → InsideName i)
    (h : OncePerVersion w inv n rs) : (listedRounds w inv n rs).Nodup := by
  induction rs generalizing n with
  | nil => exact List.nodup_nil
  | cons r rs ih =>
    unfold listedRounds
    have hs' := fun r hr => hs r (List.mem_cons_of_mem _ hr)
    refine List.Nodup.append h.1 (ih hs' h.2) (fun p hp hp' => ?_)
    have h1 := mem_listedVersion hc (hs r (by simp)) hp
    obtain ⟨k, h2, h3⟩ := listedRounds_top hc hs' hp'
    rw [h1] at h3
    have := verName_inj h3
    omega

/-- **C88, partial**: if in each version a session opens the files added get distinct content paths, and no call gives
two names to one content, the manifest lists each content path once afterwards — whether the session succeeds or not,
and whatever automatic versions it has. -/
theorem C88_listed_once_partial {w : World} {inv : Inv} {n : Nat} {s : Session} (h : WF inv n)
    (hk : (mkeys inv.manifest).Nodup) (hc : ValidComp inv.contentDir) (hold : ∀ p ∈ contentPaths inv, VersionFile inv n p)
    (hs : SafeNames w s) (hd : OncePerVersion w inv n (⟨s.info, s.before, s.body, s.after⟩ :: s.rounds))
    (ho : ListedOnce inv) : ListedOnce (session w inv s).obj.inv := by
  obtain ⟨l, hl, hp⟩ := C88_session_adds (w := w) h hk s
  have hs' : ∀ r ∈ (⟨s.info, s.before, s.body, s.after⟩ :: s.rounds : List Round),
      ∀ x ∈ callsUses (r.before ++ (r.body ++ r.after)), ∀ i, w.manifestPath x.1 x.2 = .ok i → InsideName i := by
    intro r hr x hx
    refine hs x ?_
    simp only [callsUses, List.flatMap_append, List.mem_append] at hx
    rcases List.mem_cons.1 hr with rfl | hr
    · simp only [Session.uses, callsUses, List.mem_append]; tauto
    · simp only [Session.uses, List.mem_append]
      refine Or.inr (List.mem_flatMap.2 ⟨r, hr, ?_⟩)
      simp only [callsUses, List.mem_append]; tauto
  unfold ListedOnce
  rw [hp.nodup_iff]
  refine List.Nodup.append ho (hl.nodup (listedRounds_nodup hc hs' hd)) (fun p hp1 hp2 => ?_)
  obtain ⟨k, h1, h2, rest, h3⟩ := hold p hp1
  obtain ⟨k', h4, h5⟩ := listedRounds_top hc hs' (hl.subset hp2)
  rw [h3, topOf_append (verName_noSlash _ _)] at h5
  have := verName_inj h5
  omega

/-- **C88 fails for every content given two names or more at once** (`AddReader`): if the call succeeds, the content
path is listed as often as there are names. -/
theorem C88_names_counted {w : World} {o : Obj} {fs : List Str} {a : Str} {data : Bytes} (hk : (mkeys o.inv.manifest).Nodup)
    (he : (objAddReader w o fs a data).err = none) : ∃ mp, targetOf w o.inv (fs.headD [], a) = some mp ∧
      (contentPaths (objAddReader w o fs a data).obj.inv).Perm (contentPaths o.inv ++ List.replicate fs.length mp) := by
  unfold objAddReader at he ⊢
  split at he
  · cases he
  · rename_i h1
    rw [if_neg h1]
    split at he
    · cases he
    · rename_i h2
      rw [if_neg h2]
      split at he
      · cases he
      · rename_i names mp hb
        obtain ⟨_, i, hi, hmp⟩ := buildNames_ok hb
        have hlen : names.length = fs.length := by
          unfold buildNames at hb
          obtain ⟨ns, hns, hb⟩ := res_bind_eq_ok.1 hb
          obtain ⟨j, hj, hb⟩ := res_bind_eq_ok.1 hb
          cases hb
          exact mapM_length hns
        refine ⟨mp, by simp only [targetOf, hi, hmp], ?_⟩
        unfold addReader withInv at he ⊢
        simp only at he ⊢
        split at he
        · cases he
        · rename_i cs hcs
          split at he
          · rename_i j hj
            have := (C88_add_exact hk (by rw [hmp]; exact C13_content_path_ne_nil _ _) hj).1
            rw [hlen] at this
            exact this
          · cases he

/-! ## Concrete cases -/

/-- one content stored under the names `a` and `b` at once -/
def twoNames : Session :=
  { exSession "n".toList with body := [.reader ["x".toList, "y".toList] [] [7]] }

theorem exInv_paths_old : ∀ p ∈ contentPaths exInv, VersionFile exInv 2 p := by
  intro p hp
  obtain ⟨e, he, hp⟩ := List.mem_flatMap.1 hp
  exact exInv_versionFiles e.1 e.2 p he hp

/-- **C88 is violated.** -/
theorem C88_full_fails : ¬ C88_full := by
  intro hf
  have := hf exWorld exInv 2 twoNames exInv_wf2 (by decide) exInv_contentDir exInv_paths_old
    (fun x hx i hi => by
      have hx : x = ("x".toList, []) := by
        have h : twoNames.uses = [("x".toList, [])] := by decide
        rw [h] at hx; simpa using hx
      subst hx
      cases hi
      exact ⟨0, by decide⟩) rfl (by decide) (by decide) (by unfold ListedOnce; decide)
  exact absurd this (by unfold ListedOnce; decide)

example : ListedOnce (session exWorld exInv (exSession "n".toList)).obj.inv :=
  C88_listed_once_partial exInv_wf2 (by decide) exInv_contentDir exInv_paths_old
    (fun x hx i hi => by
      have hx : x = ("n".toList, []) := by
        have h : (exSession "n".toList).uses = [("n".toList, [])] := by decide
        rw [h] at hx; simpa using hx
      subst hx
      cases hi
      exact ⟨0, by decide⟩) ⟨by decide, trivial⟩ (by unfold ListedOnce; decide)

example : (contentPaths (session exWorld exInv (exSession "n".toList)).obj.inv) =
    contentPaths exInv ++ ["v3/content/n".toList] := by decide

end Gocfl
