import Verif.Props.ContentMatch

/-!
# C170: an update does not crash

A Go panic in the middle of an update leaves a half-written version behind.
-/

namespace Gocfl

/-! ## Specification -/

/-- the names of the call can be made: every name has a place in the object -/
def NamesMade (w : World) (files : List Str) (area : Str) : Prop :=
  (∀ f ∈ files, ∃ p, w.statePath f area = .ok p) ∧ ∃ p, w.manifestPath (files.headD []) area = .ok p

/-- a call that does not give several names that cannot be made to `AddReader` -/
def Call.Safe (w : World) : Call → Prop
  | .reader files area _ => files = [] ∨ NamesMade w files area
  | _ => True

/-- the extensions report what they cannot do, they do not crash -/
structure PathsCalm (w : World) : Prop where
  state : ∀ p a m, w.statePath p a ≠ .error (.panic m)
  manifest : ∀ p a m, w.manifestPath p a ≠ .error (.panic m)

/-- the latest version is among the versions -/
def HeadThere (inv : Inv) : Prop := ∃ ver, mget inv.versions inv.head = some ver

/-! ## Lemmas -/

def CalmR (r : Res Inv) : Prop := (∀ i, r = .ok i → HeadThere i) ∧ ∀ m, r ≠ .error (.panic m)

def CalmOut (r : Out) : Prop := HeadThere r.obj.inv ∧ ∀ m, r.err ≠ some (.panic m)

theorem CalmOut.ok {o : Obj} (h : HeadThere o.inv) : CalmOut (ok o) := ⟨h, nofun⟩

theorem CalmOut.fail {o : Obj} (h : HeadThere o.inv) (m : String) : CalmOut (fail o m) := ⟨h, nofun⟩

theorem CalmOut.andThen {x : Out} {f : Obj → Out} (hx : CalmOut x) (hf : ∀ o, HeadThere o.inv → CalmOut (f o)) :
    CalmOut (x.andThen f) := by
  cases h : x.err with
  | none => rw [andThen_none h]; exact hf _ hx.1
  | some e => rw [andThen_some h]; exact hx

theorem calm_withInv {o : Obj} {r : Res Inv} (h : HeadThere o.inv) (hr : CalmR r) : CalmOut (withInv o r) := by
  unfold withInv
  cases r with
  | ok i => exact ⟨hr.1 i rfl, nofun⟩
  | error e =>
    refine ⟨h, fun m he => hr.2 m ?_⟩
    cases he
    rfl

theorem calmR_bind {r : Res Inv} {f : Inv → Res Inv} (hr : CalmR r) (hf : ∀ i, HeadThere i → CalmR (f i)) : CalmR (r >>= f) := by
  cases r with
  | ok i => exact hf i (hr.1 i rfl)
  | error e => exact ⟨nofun, fun m h => hr.2 m (by cases h; rfl)⟩

theorem headThere_state {inv : Inv} (h : HeadThere inv) : ∃ s, headState inv = .ok s := by
  obtain ⟨v, hv⟩ := h
  exact ⟨v.state, by unfold headState; rw [hv]⟩

theorem headThere_set {inv : Inv} (h : HeadThere inv) (s : DMap) (m : Bool) :
    HeadThere { setHeadState inv s with modified := m } := by
  obtain ⟨v, hv⟩ := h
  unfold setHeadState HeadThere
  rw [hv]
  exact ⟨_, mget_mset_self _ _ _⟩

theorem calm_delete {inv : Inv} (h : HeadThere inv) (p : Str) : CalmR (deleteFile inv p) := by
  obtain ⟨s, hs⟩ := headThere_state h
  unfold deleteFile
  rw [hs]
  refine ⟨fun i hi => ?_, nofun⟩
  cases hi
  exact headThere_set h _ _

theorem calm_rename {inv : Inv} (h : HeadThere inv) (a b : Str) : CalmR (renameFile inv a b) := by
  obtain ⟨s, hs⟩ := headThere_state h
  unfold renameFile
  rw [hs]
  refine ⟨fun i hi => ?_, nofun⟩
  cases hi
  exact headThere_set h _ _

theorem calm_copy {inv : Inv} (h : HeadThere inv) (p d : Str) : CalmR (copyFile inv p d) := by
  obtain ⟨s, hs⟩ := headThere_state h
  unfold copyFile
  split
  · exact ⟨nofun, nofun⟩
  · rw [hs, res_bind_ok]
    split
    · exact ⟨fun i hi => by cases hi; exact h, nofun⟩
    · exact ⟨fun i hi => by cases hi; exact headThere_set h _ _, nofun⟩

theorem calm_echoDelete {inv : Inv} (h : HeadThere inv) (ex : List Str) (p : Str) : CalmR (echoDelete inv ex p) := by
  have key : ∀ (l : List Str) (i : Inv), HeadThere i → CalmR (l.foldlM (fun i f => deleteFile i f) i) := by
    intro l
    induction l with
    | nil => exact fun i hi => ⟨fun j hj => by cases hj; exact hi, nofun⟩
    | cons x l ih =>
      intro i hi
      rw [List.foldlM_cons]
      exact calmR_bind (calm_delete hi x) ih
  unfold echoDelete
  split
  · exact ⟨nofun, nofun⟩
  · exact key _ _ h

theorem lastDigest_calm (inv : Inv) (p : Str) (m : String) : lastDigest inv p ≠ .error (.panic m) := by
  unfold lastDigest
  simp only
  split
  · exact nofun
  · split
    · exact nofun
    · split <;> exact nofun

theorem alreadyExists_calm (inv : Inv) (p d : Str) (m : String) : alreadyExists inv p d ≠ .error (.panic m) := by
  unfold alreadyExists
  split
  · exact nofun
  · cases hl : lastDigest inv p with
    | error e =>
      intro h
      have h : (Except.error e : Res Bool) = .error (.panic m) := h
      cases h
      exact lastDigest_calm _ _ _ hl
    | ok x => cases x <;> exact nofun

theorem isUpdate_calm (inv : Inv) (p d : Str) (m : String) : isUpdate inv p d ≠ .error (.panic m) := by
  unfold isUpdate
  split
  · exact nofun
  · cases hl : lastDigest inv p with
    | error e =>
      intro h
      have h : (Except.error e : Res Bool) = .error (.panic m) := h
      cases h
      exact lastDigest_calm _ _ _ hl
    | ok x => cases x <;> exact nofun

theorem calm_dropOld {inv : Inv} (h : HeadThere inv) (u : Bool) (p : Str) : CalmR (dropOld inv u p) := by
  unfold dropOld
  split
  · refine calmR_bind (calm_delete h p) (fun i hi => ⟨fun j hj => ?_, nofun⟩)
    cases hj
    exact hi
  · exact ⟨fun i hi => by cases hi; exact h, nofun⟩

theorem calm_addState {inv : Inv} (h : HeadThere inv) (u : Bool) (d p : Str) : CalmR (addState inv u d p) := by
  obtain ⟨s, hs⟩ := headThere_state h
  unfold addState
  split
  · exact ⟨fun i hi => by cases hi; exact h, nofun⟩
  · rw [hs, res_bind_ok]
    exact ⟨fun i hi => by cases hi; exact headThere_set h _ _, nofun⟩

theorem headThere_addManifest {inv : Inv} (h : HeadThere inv) (mp d : Str) : HeadThere (addManifest inv mp d) := by
  unfold addManifest
  split <;> exact h

theorem calm_addName {inv : Inv} (h : HeadThere inv) (mp d p : Str) : CalmR (addName inv mp d p) := by
  unfold addName
  cases ha : alreadyExists inv p d with
  | error e => exact ⟨nofun, fun m h => alreadyExists_calm _ _ _ m (by cases h; exact ha)⟩
  | ok dup =>
    rw [res_bind_ok]
    obtain ⟨s, hs⟩ := headThere_state (headThere_addManifest h mp d)
    rw [hs, res_bind_ok]
    have h2 : HeadThere (setHeadState (addManifest inv mp d) (mset s d (mgetD s d))) :=
      headThere_set (headThere_addManifest h mp d) _ (setHeadState (addManifest inv mp d) (mset s d (mgetD s d))).modified
    simp only
    cases hu : isUpdate (setHeadState (addManifest inv mp d) (mset s d (mgetD s d))) p d with
    | error e => exact ⟨nofun, fun m h => isUpdate_calm _ _ _ m (by cases h; exact hu)⟩
    | ok u =>
      rw [res_bind_ok]
      exact calmR_bind (calm_dropOld h2 u p) (fun i hi => calm_addState hi _ _ _)

theorem headThere_addFixity {inv : Inv} (h : HeadThere inv) (mp : Str) (cs : Str × Str) : HeadThere (addFixity inv mp cs) := by
  unfold addFixity
  split
  · exact h
  · simp only
    split <;> exact h

theorem calm_addFile {inv : Inv} (h : HeadThere inv) (names : List Str) (mp : Str) (cs : AMap Str Str) :
    CalmR (addFile inv names mp cs) := by
  unfold addFile
  split
  · exact ⟨nofun, nofun⟩
  · rename_i dig _
    simp only
    have h1 : ∀ (l : AMap Str Str) (i : Inv), HeadThere i → HeadThere (l.foldl (fun i cs => addFixity i mp cs) i) := by
      intro l
      induction l with
      | nil => exact fun i hi => hi
      | cons x l ih => exact fun i hi => ih _ (headThere_addFixity hi mp x)
    have h2 : ∀ (l : List Str) (i : Inv), HeadThere i → CalmR (l.foldlM (fun i n => addName i mp (toLower dig) n) i) := by
      intro l
      induction l with
      | nil => exact fun i hi => ⟨fun j hj => by cases hj; exact hi, nofun⟩
      | cons x l ih =>
        intro i hi
        rw [List.foldlM_cons]
        exact calmR_bind (calm_addName hi _ _ x) ih
    exact h2 _ _ (h1 _ _ h)

theorem mget_of_mkeys {V : Type} {m : AMap Str V} {k : Str} (h : k ∈ mkeys m) : ∃ v, mget m k = some v := by
  cases hg : mget m k with
  | some v => exact ⟨v, rfl⟩
  | none =>
    exfalso
    induction m with
    | nil => cases h
    | cons e m ih =>
      obtain ⟨k', v⟩ := e
      by_cases hk : k' = k
      · subst hk; simp [mget] at hg
      · have h : k ∈ k' :: mkeys m := h
        rcases List.mem_cons.1 h with h | h
        · exact hk h.symm
        · exact ih h (by simpa [mget, hk] using hg)

theorem calm_clean {inv : Inv} (h : HeadThere inv) : CalmR (clean inv) := by
  unfold clean
  split
  · exact ⟨fun i hi => by cases hi; exact h, nofun⟩
  · split
    · exact ⟨fun i hi => by cases hi; exact h, nofun⟩
    · simp only
      split
      · exact ⟨nofun, nofun⟩
      · rename_i last hne
        refine ⟨fun i hi => ?_, nofun⟩
        cases hi
        have hm : getLastVersion { inv with versions := mdel inv.versions inv.head } ∈ mkeys (mdel inv.versions inv.head) := by
          have hne : getLastVersion { inv with versions := mdel inv.versions inv.head } ≠ [] := hne
          unfold getLastVersion at hne ⊢
          split
          · rename_i h; rw [if_pos h] at hne; exact absurd rfl hne
          · rename_i h
            rw [if_neg h] at hne
            split
            · rename_i h; rw [h] at hne; exact absurd rfl hne
            · rename_i nums hn
              rw [hn] at hne
              simp only at hne ⊢
              cases hg : ((mkeys (mdel inv.versions inv.head)).filter
                  (fun k => decide (vNumber k = some ((sortInt nums).getLastD 0)))).getLast? with
              | none => rw [hg] at hne; exact absurd rfl hne
              | some k => exact (List.mem_filter.1 (List.mem_of_getLast? hg)).1
        exact mget_of_mkeys hm

theorem calm_newVersion {inv : Inv} (h : inv.head = [] ∨ HeadThere inv) (m u a t : Str) : CalmR (newVersion inv m u a t) := by
  unfold newVersion
  cases hn : nextHead inv with
  | error e =>
    refine ⟨nofun, fun msg he => ?_⟩
    have he : (Except.error e : Res Inv) = .error (.panic msg) := he
    cases he
    unfold nextHead at hn
    split at hn
    · cases hn
    · split at hn <;> cases hn
  | ok newHead =>
    rw [res_bind_ok]
    simp only
    split
    · exact ⟨fun i hi => by cases hi; exact ⟨_, mget_mset_self _ _ _⟩, nofun⟩
    · rename_i hne
      rcases h with h | ⟨ver, hv⟩
      · exact absurd h hne
      · rw [mget_mset]
        by_cases he : newHead = inv.head
        · rw [if_pos he]
          exact ⟨fun i hi => by cases hi; exact ⟨_, mget_mset_self _ _ _⟩, nofun⟩
        · rw [if_neg he, hv]
          exact ⟨fun i hi => by cases hi; exact ⟨_, mget_mset_self _ _ _⟩, nofun⟩

theorem calm_addReader {w : World} {o : Obj} (h : HeadThere o.inv) (names : List Str) (mp : Str) (d : Bytes) :
    CalmOut (addReader w o names mp d) := by
  unfold addReader
  simp only
  split
  · exact ⟨h, nofun⟩
  · exact calm_withInv h (calm_addFile h _ _ _)

theorem mapM_calm {f : Str → Res Str} (hf : ∀ x m, f x ≠ .error (.panic m)) (l : List Str) (m : String) :
    l.mapM f ≠ .error (.panic m) := by
  induction l with
  | nil => exact nofun
  | cons x l ih =>
    rw [List.mapM_cons]
    cases hx : f x with
    | error e =>
      intro h
      have h : (Except.error e : Res (List Str)) = .error (.panic m) := h
      cases h
      exact hf x m hx
    | ok y =>
      rw [res_bind_ok]
      cases hl : l.mapM f with
      | error e =>
        intro h
        have h : (Except.error e : Res (List Str)) = .error (.panic m) := h
        cases h
        exact ih hl
      | ok ys => exact nofun

theorem buildNames_calm {w : World} (hw : PathsCalm w) (inv : Inv) (files : List Str) (a : Str) (m : String) :
    buildNames w inv files a ≠ .error (.panic m) := by
  unfold buildNames
  cases h1 : files.mapM (fun f => w.statePath f a) with
  | error e =>
    intro h
    have h : (Except.error e : Res (List Str × Str)) = .error (.panic m) := h
    cases h
    exact mapM_calm (fun x m => hw.state x a m) _ _ h1
  | ok names =>
    rw [res_bind_ok]
    cases h2 : w.manifestPath (files.headD []) a with
    | error e =>
      intro h
      have h : (Except.error e : Res (List Str × Str)) = .error (.panic m) := h
      cases h
      exact hw.manifest _ _ _ h2
    | ok p => exact nofun

theorem mapM_all_ok {f : Str → Res Str} {l : List Str} (h : ∀ x ∈ l, ∃ y, f x = .ok y) : ∃ ys, l.mapM f = .ok ys := by
  induction l with
  | nil => exact ⟨[], rfl⟩
  | cons x l ih =>
    obtain ⟨y, hy⟩ := h x List.mem_cons_self
    obtain ⟨ys, hys⟩ := ih (fun z hz => h z (List.mem_cons_of_mem _ hz))
    exact ⟨y :: ys, by rw [List.mapM_cons, hy, res_bind_ok, hys]; rfl⟩

/-- names can be built exactly if each of them can be made -/
theorem buildNames_made {w : World} {inv : Inv} {files : List Str} {a : Str} :
    (∃ r, buildNames w inv files a = .ok r) ↔ NamesMade w files a := by
  constructor
  · rintro ⟨r, hr⟩
    unfold buildNames at hr
    obtain ⟨names, h1, hr⟩ := res_bind_eq_ok.1 hr
    obtain ⟨p, h2, _⟩ := res_bind_eq_ok.1 hr
    refine ⟨fun f hf => ?_, p, h2⟩
    have key : ∀ (l names : List Str), l.mapM (fun f => w.statePath f a) = .ok names → f ∈ l →
        ∃ p, w.statePath f a = .ok p := by
      intro l
      induction l with
      | nil => exact fun _ _ hf => (nomatch hf)
      | cons x l ih =>
        intro names h1 hf
        rw [List.mapM_cons] at h1
        obtain ⟨y, hy, h1⟩ := res_bind_eq_ok.1 h1
        obtain ⟨ys, hys, _⟩ := res_bind_eq_ok.1 h1
        rcases List.mem_cons.1 hf with rfl | hf
        · exact ⟨y, hy⟩
        · exact ih ys hys hf
    exact key _ _ h1 hf
  · rintro ⟨h1, p, h2⟩
    obtain ⟨names, hn⟩ := mapM_all_ok h1
    exact ⟨(names, buildManifestName inv p), by unfold buildNames; rw [hn, res_bind_ok, h2]; rfl⟩

theorem calm_objIfExists {o : Obj} (h : HeadThere o.inv) (p d : Str) {f : Inv → Res Inv} (hf : CalmR (f o.inv)) :
    CalmOut (objIfExists o p d f) := by
  unfold objIfExists
  split
  · exact .fail h _
  · cases ha : alreadyExists o.inv p d with
    | error e => exact ⟨h, fun m he => alreadyExists_calm _ _ _ m (by cases he; exact ha)⟩
    | ok b =>
      cases b
      · exact .ok h
      · exact calm_withInv h hf

theorem calm_echoIf {w : World} (hw : PathsCalm w) {o : Obj} (h : HeadThere o.inv) :
    CalmOut (if o.echo then objEcho w o else ok o) := by
  split
  · unfold objEcho
    split
    · rename_i e he
      exact ⟨h, fun m hm => hw.state _ _ m (by cases hm; exact he)⟩
    · exact calm_withInv (o := { o with updateFiles := _ }) h (calm_echoDelete h _ _)
  · exact .ok h

theorem calm_objAdd {w : World} (hw : PathsCalm w) {o : Obj} (h : HeadThere o.inv) (p a : Str) (d : Bytes) (c : Bool) :
    CalmOut (objAdd w o p a d c) := by
  unfold objAdd
  split
  · exact .fail h _
  · cases hb : buildNames w o.inv [p] a with
    | error e => exact ⟨h, fun m he => buildNames_calm hw _ _ _ m (by cases he; exact hb)⟩
    | ok r =>
      obtain ⟨names, mp⟩ := r
      simp only
      split
      · split
        · exact CalmOut.fail (o := { o with updateFiles := _ }) h _
        · unfold addChecked
          simp only
          split
          · rename_i e he
            exact ⟨h, fun m hm => alreadyExists_calm _ _ _ m (by cases hm; exact he)⟩
          · exact CalmOut.ok (o := { o with updateFiles := _ }) h
          · split
            · exact calm_withInv (o := { o with updateFiles := _ }) h (calm_copy h _ _)
            · exact calm_addReader (o := { o with updateFiles := o.updateFiles ++ [names.headD []] }) h _ _ _
      · exact calm_addReader (o := { o with updateFiles := o.updateFiles ++ [names.headD []] }) h _ _ _

theorem calm_objAddReader {w : World} {o : Obj} (h : HeadThere o.inv) {files : List Str} {a : Str} {d : Bytes}
    (hc : (Call.reader files a d).Safe w) : CalmOut (objAddReader w o files a d) := by
  unfold objAddReader
  split
  · exact .fail h _
  · rename_i hne
    split
    · exact .fail h _
    · rcases hc with hc | hc
      · exact absurd hc hne
      · obtain ⟨r, hr⟩ := (buildNames_made (inv := o.inv)).2 hc
        rw [hr]
        exact calm_addReader h _ _ _

theorem calm_call {w : World} (hw : PathsCalm w) {o : Obj} (h : HeadThere o.inv) {c : Call} (hc : c.Safe w) :
    CalmOut (runCall w o c) := by
  cases c with
  | add p a d c => exact calm_objAdd hw h p a d c
  | reader fs a d => exact calm_objAddReader h hc
  | delete p d => exact calm_objIfExists h p d (calm_delete h p)
  | rename a b d => exact calm_objIfExists h a d (calm_rename h a b)
  | beginArea => exact CalmOut.ok (o := { o with updateFiles := [] }) h
  | endArea => exact (calm_echoIf hw h).andThen (fun o ho => CalmOut.ok (o := { o with updateFiles := [] }) ho)
  | ext n d => exact CalmOut.ok (o := o.write _) h

theorem calm_calls {w : World} (hw : PathsCalm w) {cs : List Call} {o : Obj} (h : HeadThere o.inv) (hc : ∀ c ∈ cs, c.Safe w) :
    CalmOut (runCalls w o cs) := by
  induction cs generalizing o with
  | nil => exact .ok h
  | cons c cs ih =>
    unfold runCalls
    exact (calm_call hw h (hc c List.mem_cons_self)).andThen (fun o ho => ih ho (fun c h => hc c (List.mem_cons_of_mem _ h)))

theorem calm_store {w : World} {o : Obj} (h : HeadThere o.inv) (v r : Bool) : CalmOut (storeInventory w o v r) := by
  unfold storeInventory
  split
  · exact .fail h _
  · split
    · exact .fail h _
    · exact CalmOut.ok (o := o.write _) h

theorem calm_endUpdate {w : World} (hw : PathsCalm w) {rs : List Round} {o : Obj} (h : HeadThere o.inv) {after : List Call}
    (ha : ∀ c ∈ after, c.Safe w) (hr : ∀ r ∈ rs, ∀ c ∈ r.calls, c.Safe w) : CalmOut (endUpdate w o after rs) := by
  induction rs generalizing o after with
  | nil =>
    unfold endUpdate
    split
    · exact .ok h
    · split
      · exact .ok h
      · exact (calm_echoIf hw h).andThen fun o h => (calm_calls hw h ha).andThen fun o h =>
          (calm_withInv h (calm_clean h)).andThen fun o h => calm_store h _ _
  | cons r rs ih =>
    have hm : ∀ c, c ∈ r.before ∨ c ∈ r.body ∨ c ∈ r.after → c.Safe w := by
      intro c hc
      apply hr r List.mem_cons_self
      unfold Round.calls
      rcases hc with hc | hc | hc <;> simp [hc]
    unfold endUpdate
    split
    · exact .ok h
    · split
      · exact .ok h
      · refine (calm_echoIf hw h).andThen fun o h => (calm_calls hw h ha).andThen fun o h =>
          (calm_withInv h (calm_clean h)).andThen fun o h => (calm_store h _ _).andThen fun o h => ?_
        refine CalmOut.andThen ?_ fun o h => (calm_calls hw h (fun c hc => hm c (.inr (.inl hc)))).andThen fun o h =>
          ih h (fun c hc => hm c (.inr (.inr hc))) (fun r h => hr r (List.mem_cons_of_mem _ h))
        unfold startUpdate
        exact (calm_withInv (o := { o with echo := false }) h (calm_newVersion (.inr h) _ _ _ _)).andThen fun o h =>
          calm_calls hw h (fun c hc => hm c (.inl hc))

theorem calm_close {w : World} {o : Obj} (h : HeadThere o.inv) (exts : List (Str × Bytes)) : CalmOut (closeObj w o exts) := by
  unfold closeObj
  split
  · exact .ok h
  · split
    · exact .ok h
    · exact (calm_withInv h (calm_clean h)).andThen fun o h => (calm_store h _ _).andThen fun o h => CalmOut.ok (o := o.write _) h

/-! ## C170 -/

/-- **C170 (partial).** A session on an object without versions, or whose latest version is among its versions, does not
crash, if every `AddReader` is for names that can be made. -/
theorem C170_no_crash_partial {w : World} (hw : PathsCalm w) {inv : Inv} (h : inv.head = [] ∨ HeadThere inv) {s : Session}
    (hs : ∀ c ∈ s.calls, c.Safe w) (m : String) : (session w inv s).err ≠ some (.panic m) := by
  have hm : ∀ c, c ∈ s.before ∨ c ∈ s.body ∨ c ∈ s.after → c.Safe w := by
    intro c hc
    apply hs
    unfold Session.calls
    rcases hc with hc | hc | hc <;> simp [hc]
  have hr : ∀ r ∈ s.rounds, ∀ c ∈ r.calls, c.Safe w := by
    intro r hr c hc
    apply hs
    unfold Session.calls
    exact List.mem_append_right _ (List.mem_flatMap.2 ⟨r, hr, hc⟩)
  have hn := calm_newVersion h s.info.msg s.info.userName s.info.userAddress s.info.now
  unfold session sessionOpen startUpdate
  cases hv : newVersion inv s.info.msg s.info.userName s.info.userAddress s.info.now with
  | error e =>
    intro he
    have he : some e = some (.panic m) := he
    cases he
    exact hn.2 m hv
  | ok i =>
    have hi := hn.1 i hv
    have : CalmOut ((runCalls w ⟨i, [], s.echo, []⟩ s.before).andThen fun o => (runCalls w o s.body).andThen fun o =>
        (endUpdate w o s.after s.rounds).andThen fun o => closeObj w o s.exts) :=
      (calm_calls hw hi (fun c hc => hm c (.inl hc))).andThen fun o h =>
        (calm_calls hw h (fun c hc => hm c (.inr (.inl hc)))).andThen fun o h =>
        (calm_endUpdate hw h (fun c hc => hm c (.inr (.inr hc))) hr).andThen fun o h => calm_close h _
    have e : ∀ (x : Out) (f g k : Obj → Out), ((x.andThen fun o => (f o).andThen g).andThen k) =
        x.andThen fun o => (f o).andThen fun o => (g o).andThen k := by
      intro x f g k
      unfold Out.andThen
      cases h : x.err with
      | none =>
        simp only
        cases h2 : (f x.obj).err with
        | none => simp only
        | some e => simp only [h2]
      | some e => simp only [h]
    show ((((runCalls w ⟨i, [], s.echo, []⟩ s.before)).andThen fun o => (runCalls w o s.body).andThen fun o =>
        endUpdate w o s.after s.rounds).andThen fun o => closeObj w o s.exts).err ≠ _
    rw [e]
    exact this.2 m

/-- **C170, exact** for `AddReader`: on an object being updated it crashes exactly if a name cannot be made. -/
theorem C170_reader {w : World} {o : Obj} (h : HeadThere o.inv) (hwr : o.inv.writeable = true) (files : List Str)
    (a : Str) (d : Bytes) :
    (∃ m, (objAddReader w o files a d).err = some (.panic m)) ↔ files ≠ [] ∧ ¬ NamesMade w files a := by
  constructor
  · rintro ⟨m, hm⟩
    refine ⟨fun he => ?_, fun hn => ?_⟩
    · exact (calm_objAddReader (w := w) (a := a) (d := d) h (.inl he)).2 m hm
    · exact (calm_objAddReader (w := w) (a := a) (d := d) h (.inr hn)).2 m hm
  · rintro ⟨h1, h2⟩
    unfold objAddReader
    rw [if_neg h1, if_neg (by rw [hwr]; exact nofun)]
    cases hb : buildNames w o.inv files a with
    | error e => exact ⟨_, rfl⟩
    | ok r => exact absurd (buildNames_made.1 ⟨r, hb⟩) h2

/-- An object whose inventory names a latest version that is not there cannot be updated: every session crashes. -/
theorem C170_damaged {w : World} {inv : Inv} {n : Int} (hh : headNumber inv.head = some n) (hne : inv.head ≠ [])
    (h : mget inv.versions inv.head = none) (hd : verName inv.paddingLength (n + 1) ≠ inv.head) (s : Session) :
    ∃ m, (session w inv s).err = some (.panic m) := by
  have : newVersion inv s.info.msg s.info.userName s.info.userAddress s.info.now =
      .error (.panic "nil dereference: last head not in versions") := by
    unfold newVersion nextHead
    rw [if_neg hne, hh]
    simp only [res_bind_ok]
    rw [if_neg hne, mget_mset_ne _ hd, h]
  unfold session sessionOpen startUpdate
  rw [show (⟨inv, [], false, []⟩ : Obj).inv = inv from rfl, this]
  exact ⟨_, rfl⟩

/-- **C170, full statement** (false): no session on an object in order crashes. -/
def C170_full : Prop :=
  ∀ (w : World) (inv : Inv) (s : Session), PathsCalm w → inv.head = [] ∨ HeadThere inv →
    ∀ m, (session w inv s).err ≠ some (.panic m)

/-- files of the area `thumbs` have no place -/
def ncWorld : World :=
  { exWorld with statePath := fun p a => if a = "thumbs".toList then .error (.error "subpath: area not found") else .ok p }

theorem nc_calm : PathsCalm ncWorld where
  state p a m := by
    show (if _ then _ else _) ≠ _
    split <;> exact nofun
  manifest p a m := by
    show exWorld.manifestPath p a ≠ _
    exact nofun

/-- the user adds a file; afterwards an extension stores a picture in the area `area` -/
def ncSession (area : Str) : Session :=
  { exSession "c/d".toList with after := [.reader ["thumbnails/v3/00001.png".toList] area [1, 2]] }

/-- with an area that is there the session is done, and does not crash -/
example : (session ncWorld exInv (ncSession "content".toList)).err = none := by decide +kernel

example (m : String) : (session ncWorld exInv (ncSession "content".toList)).err ≠ some (.panic m) := by
  refine C170_no_crash_partial nc_calm (.inr ⟨_, rfl⟩) (fun c hc => ?_) m
  have hc : c ∈ [Call.add "c/d".toList [] [7] true, .reader ["thumbnails/v3/00001.png".toList] "content".toList [1, 2]] := hc
  rcases List.mem_cons.1 hc with rfl | hc
  · trivial
  · cases List.mem_singleton.1 hc
    exact .inr ⟨fun f _ => ⟨f, rfl⟩, _, rfl⟩

/-- an inventory whose `head` has been changed to a version that is not there -/
example : ∃ m, (session ncWorld { exInv with head := "v9".toList } (exSession "c/d".toList)).err = some (.panic m) :=
  C170_damaged (n := 9) (by decide) (by decide) (by decide) (by decide) _

/-- Thumbnails are to be stored in an area that is not configured: the update crashes after the files have been written. -/
theorem C170_full_fails : ¬ C170_full := by
  intro hf
  have := hf ncWorld exInv (ncSession "thumbs".toList) nc_calm (.inr ⟨_, rfl⟩) "nil dereference: names"
  exact this (by decide +kernel)

end Gocfl
