import Verif.Props.ContentMatch

/-!
# What a completed session consists of

The steps of a session that ends without error and has no follow-up versions.
-/

namespace Gocfl

/-- operations on the inventory alone -/
def Op.Plain : Op → Prop
  | .delete _ | .rename _ _ | .copy _ _ | .echo _ _ => True
  | _ => False

/-- A step that succeeded: nothing, an operation on the inventory, a file written and recorded, or a file of an
extension written. -/
inductive OkStep (w : World) (U : Str → Str → Prop) (o o' : Obj) : Prop
  | same (hi : o'.inv = o.inv) (ht : o'.trace = o.trace)
  | op (op : Op) (hp : op.Plain) (hi : step o.inv op = .ok o'.inv) (ht : o'.trace = o.trace)
  | add (names : List Str) (p a i : Str) (data : Bytes) (cs : AMap Str Str) (hn : names ≠ []) (hu : U p a)
      (hm : w.manifestPath p a = .ok i) (hc : checksums w (digestAlgs o.inv) data = some cs)
      (hi : addFile o.inv names (buildManifestName o.inv i) cs = .ok o'.inv)
      (ht : o'.trace = o.trace ++ writeFile (buildManifestName o.inv i) data)
  | ext (n : Str) (d : Bytes) (hi : o'.inv = o.inv) (ht : o'.trace = o.trace ++ writeFile (extPath n) d)

/-- several such steps -/
inductive OkSteps (w : World) (U : Str → Str → Prop) (o : Obj) : Obj → Prop
  | refl : OkSteps w U o o
  | tail {a b : Obj} : OkSteps w U o a → OkStep w U a b → OkSteps w U o b

theorem OkSteps.trans {w : World} {U : Str → Str → Prop} {a b c : Obj} (h : OkSteps w U a b) (h' : OkSteps w U b c) :
    OkSteps w U a c := by
  induction h' with
  | refl => exact h
  | tail _ hs ih => exact ih.tail hs

theorem OkStep.one {w : World} {U : Str → Str → Prop} {a b : Obj} (h : OkStep w U a b) : OkSteps w U a b :=
  OkSteps.refl.tail h

theorem OkSteps.inv {w : World} {U : Str → Str → Prop} {P : Obj → Prop} {o o' : Obj} (h : OkSteps w U o o')
    (h0 : P o) (hs : ∀ a b, P a → OkStep w U a b → P b) : P o' := by
  induction h with
  | refl => exact h0
  | tail _ h1 ih => exact hs _ _ ih h1

theorem withInv_err {o : Obj} {r : Res Inv} (h : (withInv o r).err = none) :
    ∃ i, r = .ok i ∧ (withInv o r).obj = { o with inv := i } := by
  unfold withInv at h ⊢
  cases r with
  | error e => cases h
  | ok i => exact ⟨i, rfl, rfl⟩

theorem addReader_okStep {w : World} {U : Str → Str → Prop} {o0 o : Obj} {names : List Str} {data : Bytes} {p a i : Str}
    (hi0 : o.inv = o0.inv) (ht0 : o.trace = o0.trace) (hn : names ≠ []) (hu : U p a)
    (hm : w.manifestPath p a = .ok i)
    (he : (addReader w o names (buildManifestName o0.inv i) data).err = none) :
    OkStep w U o0 (addReader w o names (buildManifestName o0.inv i) data).obj := by
  unfold addReader at he ⊢
  simp only at he ⊢
  cases hc : checksums w (digestAlgs o.inv) data with
  | none => rw [hc] at he; cases he
  | some cs =>
    rw [hc] at he
    simp only at he ⊢
    obtain ⟨j, hj, hobj⟩ := withInv_err he
    rw [hobj]
    rw [hi0] at hj hc
    exact OkStep.add names p a i data cs hn hu hm hc hj (by simp [Obj.write, ht0])

theorem mapM_ne_nil {α β : Type} {f : α → Res β} {l : List α} {r : List β} (h : l.mapM f = .ok r) (hl : l ≠ []) : r ≠ [] := by
  cases l with
  | nil => exact absurd rfl hl
  | cons x l =>
    rw [List.mapM_cons] at h
    obtain ⟨y, _, h⟩ := res_bind_eq_ok.1 h
    obtain ⟨ys, _, h⟩ := res_bind_eq_ok.1 h
    cases h
    simp

theorem echo_okStep {w : World} {U : Str → Str → Prop} {o : Obj} (he : (if o.echo then objEcho w o else ok o).err = none) :
    OkStep w U o (if o.echo then objEcho w o else ok o).obj := by
  split at he
  · rename_i h
    rw [if_pos h]
    unfold objEcho at he ⊢
    split at he
    · cases he
    · rename_i base hb
      obtain ⟨j, hj, hobj⟩ := withInv_err he
      rw [hobj]
      exact OkStep.op (.echo (slicesCompact (sortStr o.updateFiles)) (if base = ".".toList then [] else base)) trivial hj rfl
  · rename_i h
    rw [if_neg h]
    exact OkStep.same rfl rfl

theorem ifExists_okStep {w : World} {U : Str → Str → Prop} {o : Obj} {p d : Str} {op : Op} (hp : op.Plain)
    (he : (objIfExists o p d (fun i => step i op)).err = none) :
    OkStep w U o (objIfExists o p d (fun i => step i op)).obj := by
  unfold objIfExists at he ⊢
  split at he
  · cases he
  · rename_i hw
    rw [if_neg hw]
    cases ha : alreadyExists o.inv p d with
    | error e => rw [ha] at he; cases he
    | ok b =>
      rw [ha] at he
      cases b with
      | false => exact OkStep.same rfl rfl
      | true =>
        simp only at he ⊢
        obtain ⟨j, hj, hobj⟩ := withInv_err he
        rw [hobj]
        exact OkStep.op op hp hj rfl

theorem runCall_okStep {w : World} {U : Str → Str → Prop} {o : Obj} (c : Call) (hu : ∀ x ∈ c.uses, U x.1 x.2)
    (he : (runCall w o c).err = none) : OkStep w U o (runCall w o c).obj := by
  cases c with
  | add p a data cd =>
    have hua := hu (p, a) (by simp [Call.uses])
    have he : (objAdd w o p a data cd).err = none := he
    show OkStep w U o (objAdd w o p a data cd).obj
    unfold objAdd at he ⊢
    split at he
    · cases he
    · rename_i hw
      rw [if_neg hw]
      cases hb : buildNames w o.inv [p] a with
      | error e => rw [hb] at he; cases he
      | ok x =>
        obtain ⟨names, mp⟩ := x
        obtain ⟨hns, i, hi, rfl⟩ := buildNames_ok hb
        have hn := mapM_ne_nil hns (by simp)
        rw [hb] at he
        simp only at he ⊢
        cases cd with
        | false => exact addReader_okStep rfl rfl hn hua hi he
        | true =>
          simp only [if_true] at he ⊢
          cases hh : w.hash o.inv.digestAlg with
          | none => rw [hh] at he; cases he
          | some f =>
            rw [hh] at he
            simp only at he ⊢
            unfold addChecked at he ⊢
            simp only at he ⊢
            cases ha : alreadyExists o.inv (names.headD []) (f data) with
            | error e => rw [ha] at he; cases he
            | ok b =>
              rw [ha] at he
              cases b with
              | true => exact OkStep.same rfl rfl
              | false =>
                simp only at he ⊢
                split at he
                · rename_i hd
                  rw [if_pos hd]
                  obtain ⟨j, hj, hobj⟩ := withInv_err he
                  rw [hobj]
                  exact OkStep.op (.copy (names.headD []) (f data)) trivial hj rfl
                · rename_i hd
                  rw [if_neg hd]
                  exact addReader_okStep rfl rfl hn hua hi he
  | reader fs a data =>
    have hu := hu (fs.headD [], a) (by simp [Call.uses])
    have he : (objAddReader w o fs a data).err = none := he
    show OkStep w U o (objAddReader w o fs a data).obj
    unfold objAddReader at he ⊢
    split at he
    · cases he
    · rename_i hf
      rw [if_neg hf]
      split at he
      · cases he
      · rename_i hw
        rw [if_neg hw]
        cases hb : buildNames w o.inv fs a with
        | error e => rw [hb] at he; cases he
        | ok x =>
          obtain ⟨names, mp⟩ := x
          obtain ⟨hns, i, hi, rfl⟩ := buildNames_ok hb
          rw [hb] at he
          exact addReader_okStep rfl rfl (mapM_ne_nil hns hf) hu hi he
  | delete p d => exact ifExists_okStep (op := .delete p) trivial he
  | rename a b d => exact ifExists_okStep (op := .rename a b) trivial he
  | beginArea => exact OkStep.same rfl rfl
  | endArea =>
    unfold runCall at he ⊢
    obtain ⟨h1, _⟩ := andThen_split he
    rw [andThen_none h1]
    have := echo_okStep (w := w) (U := U) h1
    generalize (if o.echo = true then objEcho w o else ok o).obj = x at this
    cases this with
    | same hi ht => exact OkStep.same hi ht
    | op op hp hi ht => exact OkStep.op op hp hi ht
    | add n p a i d cs h1 h2 h3 h4 h5 h6 => exact OkStep.add n p a i d cs h1 h2 h3 h4 h5 h6
    | ext n d hi ht => exact OkStep.ext n d hi ht
  | ext n d => exact OkStep.ext n d rfl rfl

theorem runCalls_okSteps {w : World} {U : Str → Str → Prop} {cs : List Call} (hu : UsesIn U cs) {o : Obj}
    (he : (runCalls w o cs).err = none) : OkSteps w U o (runCalls w o cs).obj := by
  induction cs generalizing o with
  | nil => exact OkSteps.refl
  | cons c cs ih =>
    unfold runCalls at he ⊢
    obtain ⟨h1, h2⟩ := andThen_split he
    rw [andThen_none h1]
    exact (runCall_okStep c (hu c (by simp)) h1).one.trans (ih (fun c hc => hu c (List.mem_cons_of_mem _ hc)) h2)

/-- A session without follow-up versions that succeeds and has changed something: a new version is opened, steps
succeed, then the two inventories and the extensions are written. -/
theorem session_okSteps {w : World} {inv : Inv} {s : Session} (hr : s.rounds = [])
    (he : (session w inv s).err = none) (hm : (session w inv s).obj.inv.modified = true) :
    ∃ i o f, newVersion inv s.info.msg s.info.userName s.info.userAddress s.info.now = .ok i ∧
      OkSteps w (fun p a => (p, a) ∈ s.uses) ⟨i, [], s.echo, []⟩ o ∧ (session w inv s).obj.inv = o.inv ∧
      w.hash o.inv.digestAlg = some f ∧
      (session w inv s).obj.trace = o.trace ++ verWrites w f o.inv ++ (rootWrites w f o.inv ++ extWrites s.exts) := by
  have hu := s.usesIn
  cases hv : newVersion inv s.info.msg s.info.userName s.info.userAddress s.info.now with
  | error e => rw [session_eq_err hv] at he; cases he
  | ok i =>
    rw [session_eq_rest hv] at he hm ⊢
    unfold sessionRest at he hm ⊢
    obtain ⟨e1, e2⟩ := andThen_split he
    rw [andThen_none e1] at hm ⊢
    obtain ⟨e3, e4⟩ := andThen_split e1
    rw [andThen_none e3] at e2 hm ⊢
    obtain ⟨e5, e6⟩ := andThen_split e4
    rw [andThen_none e5] at e2 hm ⊢
    have s1 := runCalls_okSteps (w := w) hu.before e3
    have s2 := s1.trans (runCalls_okSteps (w := w) hu.body e5)
    generalize (runCalls w (runCalls w ⟨i, [], s.echo, []⟩ s.before).obj s.body).obj = o1 at *
    rw [hr] at e6 e2 hm ⊢
    have hm1 : o1.inv.modified = true := by
      cases h : o1.inv.modified with
      | true => rfl
      | false =>
        rw [endUpdate_unmodified h] at hm
        have : closeObj w o1 s.exts = ok o1 := by
          unfold closeObj
          split
          · rfl
          · rfl
        rw [show (ok o1).obj = o1 from rfl, this] at hm
        rw [show (ok o1).obj = o1 from rfl, h] at hm
        cases hm
    have hw1 : o1.inv.writeable = true := by
      refine OkSteps.inv (P := fun o => o.inv.writeable = true) s2 (newVersion_frame hv).2.2.2.1 ?_
      intro a b ha hs
      cases hs with
      | same hi ht => rw [hi]; exact ha
      | op op hp hi ht =>
        have : HeadOnly a.inv b.inv := run_headOnly (ops := [op]) (by rw [run_single]; exact hi) (by
          cases op <;> first | rfl | exact absurd hp id)
        exact this.wr.trans ha
      | add n p a' i' d cs h1 h2 h3 h4 h5 h6 => exact (addFile_headOnly h5).wr.trans ha
      | ext n d hi ht => rw [hi]; exact ha
    unfold endUpdate at e6 e2 hm ⊢
    rw [if_neg (by rw [hw1]; simp), if_neg (by rw [hm1]; simp)] at e6 e2 hm ⊢
    obtain ⟨e7, e8⟩ := andThen_split e6
    rw [andThen_none e7] at e2 hm ⊢
    have s3 := s2.trans (echo_okStep (w := w) e7).one
    have hm2 : (if o1.echo then objEcho w o1 else ok o1).obj.inv.modified = true :=
      (echoIf_step (w := w) (U := fun _ _ => True)).modified hm1
    generalize (if o1.echo = true then objEcho w o1 else ok o1).obj = o2 at *
    obtain ⟨e9, e10⟩ := andThen_split e8
    rw [andThen_none e9] at e2 hm ⊢
    have s4 := s3.trans (runCalls_okSteps (w := w) hu.after e9)
    have hm3 : (runCalls w o2 s.after).obj.inv.modified = true :=
      (runCalls_step (U := fun _ _ => True) s.after (fun _ _ _ _ => trivial)).modified hm2
    generalize (runCalls w o2 s.after).obj = o3 at *
    rw [clean_modified hm3, show withInv o3 (Except.ok o3.inv) = ok o3 from rfl, andThen_ok] at e10 e2 hm ⊢
    obtain ⟨f, hf, hst⟩ := storeVersion_ok e10
    rw [hst] at e2 hm ⊢
    rw [show (ok (o3.write (verWrites w f o3.inv))).obj = o3.write (verWrites w f o3.inv) from rfl] at e2 hm ⊢
    rcases closeObj_cases w (o3.write (verWrites w f o3.inv)) s.exts with ⟨h1, h2⟩ | ⟨_, _, h3, _, _⟩ | ⟨_, _, f', h3, h4⟩
    · exfalso
      have hw3 : o3.inv.writeable = true := by
        cases hw : o3.inv.writeable with
        | true => rfl
        | false =>
          unfold storeInventory at e10
          rw [if_pos hw] at e10; cases e10
      rcases h2 with h2 | h2
      · rw [show (o3.write (verWrites w f o3.inv)).inv.writeable = o3.inv.writeable from rfl, hw3] at h2; cases h2
      · rw [show (o3.write (verWrites w f o3.inv)).inv.modified = o3.inv.modified from rfl, hm3] at h2; cases h2
    · rw [show (o3.write (verWrites w f o3.inv)).inv = o3.inv from rfl, hf] at h3; cases h3
    · rw [show (o3.write (verWrites w f o3.inv)).inv = o3.inv from rfl] at h3 h4
      rw [hf] at h3; cases h3
      rw [h4]
      exact ⟨i, o3, f, rfl, s4, rfl, hf, rfl⟩

end Gocfl
