import Verif.Props.Stored

/-!
# Update sessions (C18, C26, C65)
-/

namespace Gocfl

/-! ## C26 -/

/-- The call submits a file that the head of `inv` has, with the same content, under the same logical path. -/
def Unchanged (w : World) (inv : Inv) (dupCheck : Bool) (c : Call) : Prop :=
  ∃ p a data lp h, c = .add p a data dupCheck ∧ w.statePath p a = .ok lp ∧ w.hash inv.digestAlg = some h ∧
    h data ≠ [] ∧ HasFile inv inv.head lp (h data)

/-- **C26, full statement** (false): a session that submits only unchanged files writes nothing, with and without
duplicate checking. -/
def C26_full : Prop :=
  ∀ (w : World) (inv : Inv) (n : Nat) (s : Session) (c : Bool), WF inv n → OneDigestPerPath inv →
    inv.modified = false → s.before = [] → s.echo = false → (∀ x ∈ s.body, Unchanged w inv c x) →
    (session w inv s).obj.trace = []

/-- what stays the same while unchanged files are submitted -/
def Untouched (i : Inv) (e : Bool) (o : Obj) : Prop := o.inv = i ∧ o.trace = [] ∧ o.echo = e

theorem alreadyExists_head {i : Inv} {n : Nat} (hw : WF i n) (hn : 0 < n) (ho : OneDigestPerPath i) {p d : Str}
    (hd : d ≠ []) (hf : HasFile i i.head p d) :
    alreadyExists i p d = .ok true ∨ ∃ e, alreadyExists i p d = .error e := by
  by_cases hpad : i.paddingLength ≤ 0
  · obtain ⟨b, h1, h2⟩ := C06_already_exists_exact hw.1 ho hpad (p := p) hd
    have := h2.2 ((lastHas_head hw.1 hn ho ⟨d, hf⟩).2 hf)
    rw [this] at h1
    exact Or.inl h1
  · exact Or.inr (C06_full_fails_padded hw.1 (by omega) hd ⟨d, hf⟩)

/-- Nothing happens to the inventory or the directory when an unchanged file is submitted with duplicate check
(for zero-padded objects the call fails). -/
theorem add_unchanged {w : World} {inv i : Inv} {n : Nat} (hw : WF i n) (hn : 0 < n) (ho : OneDigestPerPath i)
    (halg : i.digestAlg = inv.digestAlg) (hsame : ∀ p d, HasFile i i.head p d ↔ HasFile inv inv.head p d)
    {e : Bool} {o : Obj} (hu : Untouched i e o) {c : Call} (hc : Unchanged w inv true c) :
    Untouched i e (runCall w o c).obj := by
  obtain ⟨p, a, data, lp, h, rfl, hlp, hh, hne, hf⟩ := hc
  obtain ⟨h1, h2, h3⟩ := hu
  show Untouched i e (objAdd w o p a data true).obj
  unfold objAdd
  split
  · exact ⟨h1, h2, h3⟩
  · split
    · exact ⟨h1, h2, h3⟩
    · rename_i names mp hb
      obtain ⟨hn1, _⟩ := buildNames_ok hb
      have hnames : names = [lp] := by
        simp only [List.mapM_cons, List.mapM_nil] at hn1
        rw [hlp] at hn1
        cases hn1; rfl
      subst hnames
      rw [h1, halg, hh]
      simp only [List.headD_cons, if_true]
      unfold addChecked
      have := alreadyExists_head hw hn ho hne ((hsame _ _).2 hf)
      rcases this with h4 | ⟨er, h4⟩
      · simp only [h4]; exact ⟨rfl, h2, h3⟩
      · simp only [h4]; exact ⟨rfl, h2, h3⟩

/-- A call that leaves everything as it is: an unchanged file with duplicate check, or marking an area in a
session that does not mirror. -/
def Quiet (w : World) (inv : Inv) (echo : Bool) (c : Call) : Prop :=
  Unchanged w inv true c ∨ c = .beginArea ∨ (c = .endArea ∧ echo = false)

theorem calls_quiet {w : World} {inv i : Inv} {n : Nat} (hw : WF i n) (hn : 0 < n) (ho : OneDigestPerPath i)
    (halg : i.digestAlg = inv.digestAlg) (hsame : ∀ p d, HasFile i i.head p d ↔ HasFile inv inv.head p d)
    {e : Bool} {o : Obj} (hu : Untouched i e o) {cs : List Call} (hc : ∀ c ∈ cs, Quiet w inv e c) :
    Untouched i e (runCalls w o cs).obj := by
  induction cs generalizing o with
  | nil => exact hu
  | cons c cs ih =>
    unfold runCalls
    refine andThen_good ?_ (fun h => ih h (fun c h => hc c (by simp [h])))
    rcases hc c (by simp) with h | rfl | ⟨rfl, rfl⟩
    · exact add_unchanged hw hn ho halg hsame hu h
    · exact ⟨hu.1, hu.2.1, hu.2.2⟩
    · unfold runCall
      rw [hu.2.2]
      exact ⟨hu.1, hu.2.1, hu.2.2⟩

/-- **C26** with duplicate checking: whatever the hooks would do at the end, whether or not the session mirrors,
however often and in which order the unchanged files are submitted, nothing is written. -/
theorem C26_unchanged_writes_nothing_partial {w : World} {inv : Inv} {n : Nat} {s : Session} (hw : WF inv n)
    (ho : OneDigestPerPath inv) (hm : inv.modified = false) (hb : ∀ c ∈ s.before, Quiet w inv s.echo c)
    (hc : ∀ c ∈ s.body, Quiet w inv s.echo c) : (session w inv s).obj.trace = [] := by
  obtain ⟨i, h1, h2, h3, _⟩ := C02_new_version_copies hw.1 hw.2 s.info.msg s.info.userName s.info.userAddress
    s.info.now
  have hwi : WF i (n + 1) := newVersion_ok_gapFree hw.1 hw.2 h1
  have hoi : OneDigestPerPath i :=
    step_oneDigest (op := .newVersion s.info.msg s.info.userName s.info.userAddress s.info.now) hw ho trivial h1
  obtain ⟨f1, f2, f3, f4, _, _, _, f5, _⟩ := newVersion_frame h1
  have h0 : Untouched i s.echo ⟨i, [], s.echo, []⟩ := ⟨rfl, rfl, rfl⟩
  have key : Untouched i s.echo (sessionOpen w inv s).obj := by
    unfold sessionOpen startUpdate withInv
    simp only [h1]
    refine andThen_good ?_ (fun h => ?_)
    · exact calls_quiet hwi (by omega) hoi f3 h3 h0 hb
    · refine andThen_good (calls_quiet hwi (by omega) hoi f3 h3 h hc) (fun h' => ?_)
      rw [endUpdate_unmodified (by rw [h'.1, f5, hm])]
      exact h'
  unfold session
  have : Untouched i s.echo ((sessionOpen w inv s).andThen fun o => closeObj w o s.exts).obj := by
    refine andThen_good key (fun h => ?_)
    unfold closeObj
    split
    · exact h
    · rw [if_pos (by rw [h.1, f5, hm])]; exact h
  exact this.2.1

/-! Traces only grow. -/

def Grows (o o' : Obj) : Prop := o.trace <+: o'.trace

theorem Grows.refl (o : Obj) : Grows o o := List.prefix_refl _
theorem Grows.trans {a b c : Obj} (h : Grows a b) (h' : Grows b c) : Grows a c := List.IsPrefix.trans h h'

theorem CallStep.grows {w : World} {U : Str → Str → Prop} {o o' : Obj} (h : CallStep w U o o') : Grows o o' := by
  obtain ⟨t, ht, _⟩ := h.trace
  exact ⟨t, ht.symm⟩

theorem grows_withInv (o : Obj) (r : Res Inv) : Grows o (withInv o r).obj := by
  unfold withInv; cases r <;> exact Grows.refl _

theorem grows_calls (w : World) (o : Obj) (cs : List Call) : Grows o (runCalls w o cs).obj :=
  (runCalls_step (U := fun _ _ => True) cs (fun _ _ _ _ => trivial)).grows

theorem grows_store (w : World) (o : Obj) (v r : Bool) : Grows o (storeInventory w o v r).obj := by
  obtain ⟨_, _, t, ht, _⟩ := storeInventory_trace (w := w) (o := o) (v := v) (r := r)
  exact ⟨t, ht.symm⟩

theorem grows_andThen {a : Obj} {x : Out} {f : Obj → Out} (hx : Grows a x.obj) (hf : ∀ o, Grows o (f o).obj) :
    Grows a (x.andThen f).obj :=
  andThen_rel (R := Grows) (fun _ _ _ => Grows.trans) hx (fun _ => hf _)

theorem grows_echo (w : World) (o : Obj) : Grows o (if o.echo then objEcho w o else ok o).obj :=
  (echoIf_step (w := w) (U := fun _ _ => True)).grows

theorem grows_start (w : World) (o : Obj) (v : VInfo) (e : Bool) (cs : List Call) :
    Grows o (startUpdate w o v e cs).obj := by
  unfold startUpdate
  exact grows_andThen (grows_withInv { o with echo := e } _) (fun o => grows_calls w o cs)

theorem grows_endUpdate (w : World) (o : Obj) (after : List Call) (rounds : List Round) :
    Grows o (endUpdate w o after rounds).obj := by
  induction rounds generalizing o after with
  | nil =>
    unfold endUpdate
    split
    · exact Grows.refl _
    · split
      · exact Grows.refl _
      · refine grows_andThen (grows_echo w o) fun o => ?_
        refine grows_andThen (grows_calls w o _) fun o => ?_
        exact grows_andThen (grows_withInv o _) fun o => grows_store w o _ _
  | cons r rs ih =>
    unfold endUpdate
    split
    · exact Grows.refl _
    · split
      · exact Grows.refl _
      · refine grows_andThen (grows_echo w o) fun o => ?_
        refine grows_andThen (grows_calls w o _) fun o => ?_
        refine grows_andThen (grows_withInv o _) fun o => ?_
        refine grows_andThen (grows_store w o _ _) fun o => ?_
        refine grows_andThen (grows_start w o _ _ _) fun o => ?_
        exact grows_andThen (grows_calls w o _) fun o => ih o _

theorem grows_close (w : World) (o : Obj) (exts : List (Str × Bytes)) : Grows o (closeObj w o exts).obj := by
  rcases closeObj_cases w o exts with ⟨h, _⟩ | ⟨_, _, _, h, _⟩ | ⟨_, _, f, _, h⟩
  · rw [h]; exact Grows.refl _
  · rw [h]; exact Grows.refl _
  · rw [h]; exact List.prefix_append _ _

/-- **C26 fails** for every object and every file, unchanged or not, when it is submitted without duplicate
check: its content is written into the directory of the next version. -/
theorem C26_full_fails_unchecked {w : World} {inv : Inv} {n : Nat} {s : Session} (hw : WF inv n)
    (hb : s.before = []) {p a lp i : Str} {data : Bytes} {rest : List Call}
    (hs : s.body = .add p a data false :: rest) (h1 : w.statePath p a = .ok lp) (h2 : w.manifestPath p a = .ok i) :
    FsOp.create (buildManifestName { inv with head := verName inv.paddingLength ((n + 1 : Nat) : Int) } i) ∈
      (session w inv s).obj.trace := by
  obtain ⟨v, e1, e2, _⟩ := C02_new_version_copies hw.1 hw.2 s.info.msg s.info.userName s.info.userAddress s.info.now
  obtain ⟨f1, f2, f3, f4, _⟩ := newVersion_frame e1
  have hname : buildManifestName v i =
      buildManifestName { inv with head := verName inv.paddingLength ((n + 1 : Nat) : Int) } i := by
    unfold buildManifestName buildManifestNameVersion Inv.contentDir
    rw [e2, f1]
  have hadd : FsOp.create (buildManifestName v i) ∈
      (runCall w ⟨v, [], s.echo, []⟩ (.add p a data false)).obj.trace := by
    show _ ∈ (objAdd w _ p a data false).obj.trace
    unfold objAdd
    rw [if_neg (by rw [f4]; simp)]
    have hbn : buildNames w v [p] a = .ok ([lp], buildManifestName v i) := by
      unfold buildNames
      simp only [List.mapM_cons, List.mapM_nil, h1, h2, List.headD_cons]
      rfl
    simp only [hbn]
    rw [if_neg (by simp)]
    unfold addReader
    simp only
    split
    · simp [Obj.write]
    · unfold withInv
      split <;> simp [Obj.write, writeFile]
  have hst : startUpdate w ⟨inv, [], false, []⟩ s.info s.echo s.before = ok ⟨v, [], s.echo, []⟩ := by
    unfold startUpdate withInv
    rw [e1, hb]; rfl
  have hg : Grows (runCall w ⟨v, [], s.echo, []⟩ (.add p a data false)).obj (session w inv s).obj := by
    unfold session sessionOpen
    rw [hst, andThen_ok, hs]
    refine grows_andThen (grows_andThen ?_ fun o => grows_endUpdate w o _ _) fun o => grows_close w o _
    unfold runCalls
    exact grows_andThen (Grows.refl _) fun o => grows_calls w o _
  rw [← hname]
  exact hg.subset hadd

/-- the example world, with a hash under which the content `7` is what the example object has at `a` -/
def exHash7 (b : Bytes) : Str := if b = [7] then "d1".toList else "d9".toList

def exWorld7 : World :=
  { exWorld with hash := fun a => if a = "sha512".toList then some exHash7 else none }

/-- the unchanged file `a` of the example once more -/
def exResubmit (c echo : Bool) : Session :=
  { exSession [] with body := [.add "a".toList [] [7] c], echo := echo }

theorem exResubmit_unchanged (c e : Bool) : ∀ x ∈ (exResubmit c e).body, Unchanged exWorld7 exInv c x := by
  intro x hx
  have : x = .add "a".toList [] [7] c := by simpa [exResubmit] using hx
  subst this
  refine ⟨_, _, _, "a".toList, exHash7, rfl, rfl,
    (if_pos rfl : (if exInv.digestAlg = "sha512".toList then some exHash7 else none) = some exHash7), by decide, ?_⟩
  have hs : headState exInv = .ok [("d2".toList, ["b".toList]), ("d1".toList, ["a".toList])] := by decide
  exact (hasFile_head_decide exInv_gapFree.nodup hs _ _).2 (by decide)

example : (session exWorld7 exInv (exResubmit true false)).obj.trace = [] :=
  C26_unchanged_writes_nothing_partial exInv_wf2 exInv_oneDigest rfl (by simp [exResubmit, exSession])
    (fun c hc => Or.inl (exResubmit_unchanged true false c hc))

/-- Without duplicate check, the unchanged file is written into a new version directory and left there: no
inventory mentions it. -/
theorem C26_full_fails : ¬ C26_full := by
  intro h
  have h1 := h exWorld7 exInv 2 (exResubmit false false) false exInv_wf2 exInv_oneDigest rfl rfl rfl
    (exResubmit_unchanged false false)
  have h2 : (session exWorld7 exInv (exResubmit false false)).obj.trace.map FsOp.path =
    ["v3/content/a".toList, "v3/content/a".toList] := by decide
  rw [h1] at h2; cases h2

/-! ## C18 -/

/-- the call submits a file under logical path `x` -/
def Submits (w : World) (x : Str) : Call → Prop
  | .add p a _ _ => w.statePath p a = .ok x
  | .reader fs a _ => ∃ f ∈ fs, w.statePath f a = .ok x
  | _ => False

/-- **C18, full statement** (false): a mirroring session (without hooks that add files at its end) that submits
unchanged files only and succeeds stores a new version without every file of the mirrored area that was not
submitted. -/
def C18_full : Prop :=
  ∀ (w : World) (fs : FS) (inv : Inv) (n : Nat) (s : Session) (c : Bool) (base p0 : Str), WF inv n →
    OneDigestPerPath inv → inv.modified = false → s.echo = true → s.before = [] → s.after = [] → s.rounds = [] →
    w.statePath ".".toList [] = .ok base → (∀ x ∈ s.body, Unchanged w inv c x) → HasPath inv inv.head p0 →
    InArea base p0 → (∀ x ∈ s.body, ¬ Submits w p0 x) → (session w inv s).err = none →
    ∃ i : Inv, mget (applyOps fs (session w inv s).obj.trace) rootInvPath = some (w.enc i) ∧
      i.head = verName inv.paddingLength ((n + 1 : Nat) : Int) ∧ ¬ HasPath i i.head p0

theorem mapM_ok_mem {α β : Type} {f : α → Res β} {l : List α} {r : List β} (h : l.mapM f = .ok r) :
    ∀ y ∈ r, ∃ x ∈ l, f x = .ok y := by
  induction l generalizing r with
  | nil => cases h; simp
  | cons a l ih =>
    rw [List.mapM_cons] at h
    obtain ⟨b, hb, h⟩ := res_bind_eq_ok.1 h
    obtain ⟨bs, hbs, h⟩ := res_bind_eq_ok.1 h
    cases h
    intro y hy
    rcases List.mem_cons.1 hy with rfl | hy
    · exact ⟨a, by simp, hb⟩
    · obtain ⟨x, hx, h⟩ := ih hbs y hy
      exact ⟨x, by simp [hx], h⟩

theorem mapM_mem_of {α β : Type} {f : α → Res β} {l : List α} {r : List β} (h : l.mapM f = .ok r) {x : α}
    (hx : x ∈ l) {y : β} (hy : f x = .ok y) : y ∈ r := by
  induction l generalizing r with
  | nil => cases hx
  | cons a l ih =>
    rw [List.mapM_cons] at h
    obtain ⟨b, hb, h⟩ := res_bind_eq_ok.1 h
    obtain ⟨bs, hbs, h⟩ := res_bind_eq_ok.1 h
    cases h
    rcases List.mem_cons.1 hx with rfl | hx
    · rw [hy] at hb; cases hb; simp
    · exact List.mem_cons_of_mem _ (ih hbs hx)

theorem withInv_updateFiles (o : Obj) (r : Res Inv) : (withInv o r).obj.updateFiles = o.updateFiles := by
  unfold withInv; cases r <;> rfl

theorem addReader_updateFiles (w : World) (o : Obj) (names : List Str) (mp : Str) (data : Bytes) :
    (addReader w o names mp data).obj.updateFiles = o.updateFiles ++ names := by
  unfold addReader
  simp only
  split
  · rfl
  · rw [withInv_updateFiles]; rfl

theorem runCall_updateFiles {w : World} {o : Obj} {c : Call} {x : Str} (h : x ∈ (runCall w o c).obj.updateFiles) :
    x ∈ o.updateFiles ∨ Submits w x c := by
  cases c with
  | add p a data cd =>
    have h : x ∈ (objAdd w o p a data cd).obj.updateFiles := h
    unfold objAdd at h
    split at h
    · exact Or.inl h
    · split at h
      · exact Or.inl h
      · rename_i names mp hb
        have hn := (buildNames_ok hb).1
        obtain ⟨lp, hlp, rfl⟩ : ∃ lp, w.statePath p a = .ok lp ∧ names = [lp] := by
          simp only [List.mapM_cons, List.mapM_nil] at hn
          obtain ⟨lp, hlp, hn⟩ := res_bind_eq_ok.1 hn
          cases hn; exact ⟨lp, hlp, rfl⟩
        have key : ∀ l : List Str, (∀ y ∈ l, y = lp) → x ∈ o.updateFiles ++ l →
            x ∈ o.updateFiles ∨ Submits w x (.add p a data cd) := by
          intro l hl hx
          rcases List.mem_append.1 hx with hx | hx
          · exact Or.inl hx
          · rw [hl x hx]; exact Or.inr hlp
        simp only [List.headD_cons] at h
        split at h
        · split at h
          · exact key [lp] (by simp) h
          · unfold addChecked at h
            split at h
            · exact key [lp] (by simp) h
            · exact key [lp] (by simp) h
            · split at h
              · rw [withInv_updateFiles] at h; exact key [lp] (by simp) h
              · rw [addReader_updateFiles] at h
                exact key ([lp] ++ [lp]) (by simp) (by simpa using h)
        · rw [addReader_updateFiles] at h
          exact key ([lp] ++ [lp]) (by simp) (by simpa using h)
  | reader fs a data =>
    have h : x ∈ (objAddReader w o fs a data).obj.updateFiles := h
    unfold objAddReader at h
    split at h
    · exact Or.inl h
    · split at h
      · exact Or.inl h
      · split at h
        · exact Or.inl h
        · rename_i names mp hb
          rw [addReader_updateFiles] at h
          rcases List.mem_append.1 h with h | h
          · exact Or.inl h
          · exact Or.inr (mapM_ok_mem (buildNames_ok hb).1 x h)
  | delete p d =>
    have h : x ∈ (objIfExists o p d (fun i => deleteFile i p)).obj.updateFiles := h
    unfold objIfExists at h
    split at h
    · exact Or.inl h
    · split at h
      · exact Or.inl h
      · exact Or.inl h
      · rw [withInv_updateFiles] at h; exact Or.inl h
  | rename a b d =>
    have h : x ∈ (objIfExists o a d (fun i => renameFile i a b)).obj.updateFiles := h
    unfold objIfExists at h
    split at h
    · exact Or.inl h
    · split at h
      · exact Or.inl h
      · exact Or.inl h
      · rw [withInv_updateFiles] at h; exact Or.inl h
  | beginArea => exact absurd h (by simp [runCall, ok])
  | endArea =>
    left
    have h : x ∈ ((if o.echo then objEcho w o else ok o).andThen
      (fun o => ok { o with updateFiles := [] })).obj.updateFiles := h
    cases he : (if o.echo then objEcho w o else ok o).err with
    | none => rw [andThen_none he] at h; exact absurd h (by simp [ok])
    | some e =>
      rw [andThen_some he] at h
      split at h
      · unfold objEcho at h
        split at h
        · exact h
        · rw [withInv_updateFiles] at h
          exact (sortStr_perm _).mem_iff.1 ((mem_slicesCompact _ _).1 h)
      · exact h
  | ext n d => exact Or.inl h

theorem runCalls_updateFiles {w : World} {o : Obj} {cs : List Call} {x : Str}
    (h : x ∈ (runCalls w o cs).obj.updateFiles) : x ∈ o.updateFiles ∨ ∃ c ∈ cs, Submits w x c := by
  induction cs generalizing o with
  | nil => exact Or.inl h
  | cons c cs ih =>
    unfold runCalls at h
    have h1 : x ∈ (runCall w o c).obj.updateFiles ∨ ∃ c ∈ cs, Submits w x c := by
      cases he : (runCall w o c).err with
      | none => rw [andThen_none he] at h; exact ih h
      | some e => rw [andThen_some he] at h; exact Or.inl h
    rcases h1 with h1 | ⟨c', hc, h1⟩
    · rcases runCall_updateFiles h1 with h2 | h2
      · exact Or.inl h2
      · exact Or.inr ⟨c, by simp, h2⟩
    · exact Or.inr ⟨c', by simp [hc], h1⟩

/-- **C18 fails** for every such session with duplicate check: although files have vanished, nothing at all is
written, so the object keeps its old head with these files. -/
theorem C18_full_fails_checked {w : World} {inv : Inv} {n : Nat} {s : Session} (hw : WF inv n)
    (ho : OneDigestPerPath inv) (hm : inv.modified = false) (hb : s.before = [])
    (hc : ∀ x ∈ s.body, Unchanged w inv true x) (fs : FS) : applyOps fs (session w inv s).obj.trace = fs := by
  rw [C26_unchanged_writes_nothing_partial hw ho hm (by rw [hb]; simp) (fun c h => Or.inl (hc c h))]
  rfl

/-- File `b` of the example vanishes, `a` is submitted unchanged. -/
theorem C18_full_fails : ¬ C18_full := by
  intro h
  have hs : headState exInv = .ok [("d2".toList, ["b".toList]), ("d1".toList, ["a".toList])] := by decide
  obtain ⟨i, h1, _⟩ := h exWorld7 [] exInv 2 (exResubmit true true) true ".".toList "b".toList exInv_wf2
    exInv_oneDigest rfl rfl rfl rfl rfl rfl (exResubmit_unchanged true true)
    ⟨"d2".toList, (hasFile_head_decide exInv_gapFree.nodup hs _ _).2 (by decide)⟩ (Or.inl rfl)
    (by
      intro x hx
      have : x = .add "a".toList [] [7] true := by simpa [exResubmit] using hx
      subst this
      intro hc
      cases hc) (by decide)
  rw [C18_full_fails_checked exInv_wf2 exInv_oneDigest rfl rfl (exResubmit_unchanged true true)] at h1
  cases h1

/-- the mirror deletion at the end of a session without closing hooks -/
theorem endUpdate_echo {w : World} {o : Obj} {base : Str} {k : Nat} (hw : WF o.inv k) (hk : 0 < k)
    (hwr : o.inv.writeable = true) (hm : o.inv.modified = true) (he : o.echo = true)
    (hb : w.statePath ".".toList [] = .ok base) :
    (endUpdate w o [] []).obj.inv.head = o.inv.head ∧
    ∀ p d, HasFile (endUpdate w o [] []).obj.inv o.inv.head p d ↔
      HasFile o.inv o.inv.head p d ∧ ((base = ".".toList ∨ base <+: p) → p ∈ o.updateFiles) := by
  obtain ⟨i, h1, h2, h3, _⟩ := C17_mirror_exact hw.1 hk o.updateFiles base
  have hecho : objEcho w o = ok { o with updateFiles := slicesCompact (sortStr o.updateFiles), inv := i } := by
    unfold objEcho
    rw [hb]
    simp only [h1, withInv, ok]
  have hmi : i.modified = true :=
    run_modified (ops := [.echo (slicesCompact (sortStr o.updateFiles)) (if base = ".".toList then [] else base)])
      (by rw [run_single]; exact h1) hm
  have : (endUpdate w o [] []).obj.inv = i := by
    unfold endUpdate
    rw [if_neg (by rw [hwr]; simp), if_neg (by rw [hm]; simp), if_pos he, hecho, andThen_ok]
    simp only [runCalls, andThen_ok]
    rw [show (withInv { o with updateFiles := slicesCompact (sortStr o.updateFiles), inv := i } (clean i)) =
      ok { o with updateFiles := slicesCompact (sortStr o.updateFiles), inv := i } by rw [clean_modified hmi]; rfl,
      andThen_ok]
    exact storeInventory_trace.1
  rw [this]
  exact ⟨h2, h3⟩

/-- **C18** when the session has changed something else before its end (a new or changed file, a deletion): the
new version is stored and has no file of the mirrored area that was not submitted.  Missing: sessions in which
deletion is the only change (`C18_full_fails_checked`). -/
theorem C18_vanished_files_removed_partial {w : World} (fs : FS) {inv : Inv} {n : Nat} {s : Session} {base : Str}
    (hw : WF inv n) (he : s.echo = true) (ha : s.after = []) (hr : s.rounds = [])
    (hb : w.statePath ".".toList [] = .ok base) (herr : (session w inv s).err = none)
    (hmod : (session w inv s).obj.inv.modified = true) :
    let i := (session w inv s).obj.inv
    mget (applyOps fs (session w inv s).obj.trace) rootInvPath = some (w.enc i) ∧
    mget (applyOps fs (session w inv s).obj.trace) (verInvPath i.head) = some (w.enc i) ∧
    i.head = verName inv.paddingLength ((n + 1 : Nat) : Int) ∧
    ∀ p, InArea base p → (∀ x ∈ s.before ++ s.body, ¬ Submits w p x) → ¬ HasPath i i.head p := by
  obtain ⟨f, hf, g1, g2, _⟩ := C24_stored_files (fs := fs) hw herr hmod
  refine ⟨g1, g2, ?_⟩
  obtain ⟨_, _, _, hsame, _, _, _⟩ := session_stored hw herr hmod
  rw [hsame] at hmod ⊢
  have herr : (sessionOpen w inv s).err = none := by
    unfold session at herr
    exact (andThen_split herr).1
  have hu := s.usesIn
  unfold sessionOpen at herr hmod ⊢
  rw [ha, hr] at herr hmod ⊢
  obtain ⟨e1, herr⟩ := andThen_split herr
  rw [andThen_none e1] at hmod ⊢
  obtain ⟨e2, herr⟩ := andThen_split herr
  rw [andThen_none e2] at hmod ⊢
  obtain ⟨v, n1, n2, _⟩ := C02_new_version_copies hw.1 hw.2 s.info.msg s.info.userName s.info.userAddress s.info.now
  have hst : startUpdate w ⟨inv, [], false, []⟩ s.info s.echo s.before =
      runCalls w ⟨v, [], true, []⟩ s.before := by
    unfold startUpdate withInv
    rw [n1, he]; rfl
  rw [hst] at e1 e2 herr hmod ⊢
  have hwv : WF v (n + 1) := newVersion_ok_gapFree hw.1 hw.2 n1
  have c1 := runCalls_step (w := w) (U := fun _ _ => True) (o := ⟨v, [], true, []⟩) s.before (fun _ _ _ _ => trivial)
  have c2 := c1.trans (runCalls_step (w := w) (U := fun _ _ => True)
    (o := (runCalls w ⟨v, [], true, []⟩ s.before).obj) s.body (fun _ _ _ _ => trivial))
  have hupd : ∀ x ∈ (runCalls w (runCalls w ⟨v, [], true, []⟩ s.before).obj s.body).obj.updateFiles,
      ∃ c ∈ s.before ++ s.body, Submits w x c := by
    intro x hx
    rcases runCalls_updateFiles hx with hx | ⟨c, hc, hx⟩
    · rcases runCalls_updateFiles hx with hx | ⟨c, hc, hx⟩
      · cases hx
      · exact ⟨c, List.mem_append.2 (Or.inl hc), hx⟩
    · exact ⟨c, List.mem_append.2 (Or.inr hc), hx⟩
  set o2 := (runCalls w (runCalls w ⟨v, [], true, []⟩ s.before).obj s.body).obj
  obtain ⟨ops, hops, hcn⟩ := c2.inv
  have hw2 : WF o2.inv (n + 1) := by have := run_wf hwv hops; rw [hcn] at this; exact this
  have hm2 : o2.inv.modified = true := by
    cases hm2 : o2.inv.modified with
    | true => rfl
    | false => rw [endUpdate_unmodified hm2] at hmod; rw [show (ok o2).obj.inv.modified = _ from hm2] at hmod; cases hmod
  have hwr : o2.inv.writeable = true := c2.headOnly.wr.trans (newVersion_frame n1).2.2.2.1
  obtain ⟨k1, k2⟩ := endUpdate_echo hw2 (by omega) hwr hm2 c2.echo hb
  refine ⟨?_, ?_⟩
  · rw [k1, c2.headOnly.head]; exact n2
  · rintro p hp hns ⟨d, hd⟩
    rw [k1, k2] at hd
    have hp' : base = ".".toList ∨ base <+: p := by
      rcases hp with h | rfl | h
      · exact Or.inl h
      · exact Or.inr (List.prefix_refl _)
      · exact Or.inr ((List.prefix_append _ _).trans h)
    obtain ⟨c, hc, hx⟩ := hupd p (hd.2 hp')
    exact hns c hc hx

/-- a mirroring session submitting a new file `c` only: both files of the example vanish, the new version is
stored without them -/
def exMirror : Session := { exSession "c".toList with echo := true }

example : (session exWorld7 exInv exMirror).err = none ∧ (session exWorld7 exInv exMirror).obj.inv.modified = true ∧
    headState (session exWorld7 exInv exMirror).obj.inv = .ok [("d2".toList, []), ("d1".toList, ["c".toList])] := by
  decide

/-! ## C65 -/

/-- the session up to the point where `EndUpdate` is called -/
def beforeEnd (w : World) (inv : Inv) (s : Session) : Out :=
  (startUpdate w ⟨inv, [], false, []⟩ s.info s.echo s.before).andThen fun o => runCalls w o s.body

/-- **C65, full statement** (false): in a mirroring session the files submitted — all at once, or area by area
between `BeginArea` and `EndArea` — are in the stored version (if they were recorded when submitted). -/
def C65_full : Prop :=
  ∀ (w : World) (inv : Inv) (n : Nat) (s : Session) (base p d : Str), WF inv n → s.echo = true → s.after = [] →
    s.rounds = [] → w.statePath ".".toList [] = .ok base → (session w inv s).err = none →
    (session w inv s).obj.inv.modified = true → (∃ x ∈ s.before ++ s.body, Submits w p x) →
    HasFile (beforeEnd w inv s).obj.inv (beforeEnd w inv s).obj.inv.head p d →
    HasFile (session w inv s).obj.inv (session w inv s).obj.inv.head p d

theorem beforeEnd_wf {w : World} {inv : Inv} {n : Nat} {s : Session} (hw : WF inv n) :
    WF (beforeEnd w inv s).obj.inv (n + 1) ∧ (beforeEnd w inv s).obj.inv.writeable = true ∧
      (beforeEnd w inv s).obj.echo = s.echo := by
  obtain ⟨v, n1, n2, _⟩ := C02_new_version_copies hw.1 hw.2 s.info.msg s.info.userName s.info.userAddress s.info.now
  have hwv : WF v (n + 1) := newVersion_ok_gapFree hw.1 hw.2 n1
  have hst : startUpdate w ⟨inv, [], false, []⟩ s.info s.echo s.before =
      runCalls w ⟨v, [], s.echo, []⟩ s.before := by
    unfold startUpdate withInv
    rw [n1]; rfl
  have c2 : CallStep w (fun _ _ => True) ⟨v, [], s.echo, []⟩ (beforeEnd w inv s).obj := by
    unfold beforeEnd
    rw [hst]
    exact andThen_rel (R := CallStep w (fun _ _ => True)) (fun _ _ _ => CallStep.trans)
      (runCalls_step _ (fun _ _ _ _ => trivial)) (fun _ => runCalls_step _ (fun _ _ _ _ => trivial))
  obtain ⟨ops, hops, hcn⟩ := c2.inv
  refine ⟨?_, c2.headOnly.wr.trans (newVersion_frame n1).2.2.2.1, c2.echo⟩
  have := run_wf hwv hops; rw [hcn] at this; exact this

/-- The end of a mirroring session without closing hooks, in terms of what was submitted since the last area
mark. -/
theorem session_mirror {w : World} {inv : Inv} {n : Nat} {s : Session} {base : Str}
    (hw : WF inv n) (he : s.echo = true) (ha : s.after = []) (hr : s.rounds = [])
    (hb : w.statePath ".".toList [] = .ok base) (herr : (session w inv s).err = none)
    (hmod : (session w inv s).obj.inv.modified = true) :
    (beforeEnd w inv s).err = none ∧
    (session w inv s).obj.inv.head = (beforeEnd w inv s).obj.inv.head ∧
    ∀ p d, HasFile (session w inv s).obj.inv (session w inv s).obj.inv.head p d ↔
      HasFile (beforeEnd w inv s).obj.inv (beforeEnd w inv s).obj.inv.head p d ∧
        ((base = ".".toList ∨ base <+: p) → p ∈ (beforeEnd w inv s).obj.updateFiles) := by
  obtain ⟨_, _, _, hsame, _, _, _⟩ := session_stored hw herr hmod
  rw [hsame] at hmod ⊢
  have herr : (sessionOpen w inv s).err = none := by
    unfold session at herr
    exact (andThen_split herr).1
  have hopen : sessionOpen w inv s = (beforeEnd w inv s).andThen fun o => endUpdate w o [] [] := by
    unfold sessionOpen beforeEnd
    rw [ha, hr]
    cases h1 : (startUpdate w ⟨inv, [], false, []⟩ s.info s.echo s.before).err with
    | none => rw [andThen_none h1, andThen_none h1]
    | some e => rw [andThen_some h1, andThen_some h1, andThen_some h1]
  rw [hopen] at hmod herr ⊢
  obtain ⟨e1, herr⟩ := andThen_split herr
  rw [andThen_none e1] at hmod ⊢
  refine ⟨e1, ?_⟩
  obtain ⟨hw2, hwr, hec⟩ := beforeEnd_wf (w := w) (s := s) hw
  rw [he] at hec
  set o2 := (beforeEnd w inv s).obj
  have hm2 : o2.inv.modified = true := by
    cases hm2 : o2.inv.modified with
    | true => rfl
    | false => rw [endUpdate_unmodified hm2] at hmod; rw [show (ok o2).obj.inv.modified = _ from hm2] at hmod; cases hmod
  obtain ⟨k1, k2⟩ := endUpdate_echo hw2 (by omega) hwr hm2 hec hb
  refine ⟨k1, fun p d => ?_⟩
  rw [k1]
  exact k2 p d

/-- **C65 fails** for every mirroring session that ends an area last: the version it stores has no file of the
mirrored part of the object at all, whatever was submitted. -/
theorem C65_full_fails_area {w : World} {inv : Inv} {n : Nat} {s : Session} {base : Str} {cs : List Call}
    (hw : WF inv n) (he : s.echo = true) (ha : s.after = []) (hr : s.rounds = [])
    (hb : w.statePath ".".toList [] = .ok base) (hbody : s.body = cs ++ [.endArea])
    (herr : (session w inv s).err = none) (hmod : (session w inv s).obj.inv.modified = true) :
    ∀ p, InArea base p → ¬ HasPath (session w inv s).obj.inv (session w inv s).obj.inv.head p := by
  obtain ⟨h1, h2, h3⟩ := session_mirror hw he ha hr hb herr hmod
  rintro p hp ⟨d, hd⟩
  have hupd := ((h3 p d).1 hd).2 (by
    rcases hp with h | rfl | h
    · exact Or.inl h
    · exact Or.inr (List.prefix_refl _)
    · exact Or.inr ((List.prefix_append _ _).trans h))
  have hlast : ∀ (cs : List Call) (o : Obj), (runCalls w o (cs ++ [.endArea])).err = none →
      (runCalls w o (cs ++ [.endArea])).obj.updateFiles = [] := by
    intro cs
    induction cs with
    | nil =>
      intro o h
      rw [List.nil_append] at h ⊢
      unfold runCalls at h ⊢
      obtain ⟨e1, _⟩ := andThen_split h
      rw [andThen_none e1]
      simp only [runCalls, ok]
      unfold runCall at e1 ⊢
      obtain ⟨e1, _⟩ := andThen_split e1
      rw [andThen_none e1]; rfl
    | cons c cs ih =>
      intro o h
      rw [List.cons_append] at h ⊢
      unfold runCalls at h ⊢
      obtain ⟨e1, h⟩ := andThen_split h
      rw [andThen_none e1]
      exact ih _ h
  unfold beforeEnd at h1 hupd
  obtain ⟨e1, h1⟩ := andThen_split h1
  rw [andThen_none e1, hbody] at hupd
  rw [hbody] at h1
  rw [hlast cs _ h1] at hupd
  cases hupd

/-- a new file `c` submitted in an area -/
def exAreaSession : Session :=
  { exMirror with body := [.beginArea, .add "c".toList [] [9] true, .endArea] }

example : (session exWorld7 exInv exAreaSession).err = none ∧
    (session exWorld7 exInv exAreaSession).obj.inv.modified = true := by decide

theorem C65_full_fails : ¬ C65_full := by
  intro h
  have hg : WF (beforeEnd exWorld7 exInv exAreaSession).obj.inv 3 := (beforeEnd_wf exInv_wf2).1
  have hs : headState (beforeEnd exWorld7 exInv exAreaSession).obj.inv =
    .ok [("d2".toList, []), ("d1".toList, []), ("d9".toList, ["c".toList])] := by decide
  refine C65_full_fails_area (s := exAreaSession) (cs := [.beginArea, .add "c".toList [] [9] true]) exInv_wf2 rfl rfl
    rfl rfl rfl (w := exWorld7) (by decide) (by decide) "c".toList (Or.inl rfl) ⟨"d9".toList, ?_⟩
  refine h exWorld7 exInv 2 exAreaSession ".".toList _ _ exInv_wf2 rfl rfl rfl rfl (by decide) (by decide)
    ⟨.add "c".toList [] [9] true, List.mem_cons_of_mem _ List.mem_cons_self, rfl⟩ ?_
  exact (hasFile_head_decide hg.1.nodup hs _ _).2 (by decide)

theorem runCall_updateFiles_of {w : World} {o : Obj} {c : Call} (hno : c ≠ .beginArea ∧ c ≠ .endArea)
    (he : (runCall w o c).err = none) {x : Str} (h : x ∈ o.updateFiles ∨ Submits w x c) :
    x ∈ (runCall w o c).obj.updateFiles := by
  cases c with
  | add p a data cd =>
    have he : (objAdd w o p a data cd).err = none := he
    show x ∈ (objAdd w o p a data cd).obj.updateFiles
    unfold objAdd at he ⊢
    split
    · rename_i hw; rw [if_pos hw] at he; cases he
    · rename_i hw; rw [if_neg hw] at he
      split
      · rename_i e hb; rw [hb] at he; cases he
      · rename_i names mp hb
        have hn := (buildNames_ok hb).1
        obtain ⟨lp, hlp, rfl⟩ : ∃ lp, w.statePath p a = .ok lp ∧ names = [lp] := by
          simp only [List.mapM_cons, List.mapM_nil] at hn
          obtain ⟨lp, hlp, hn⟩ := res_bind_eq_ok.1 hn
          cases hn; exact ⟨lp, hlp, rfl⟩
        have hx : x ∈ o.updateFiles ++ [lp] := by
          rcases h with h | h
          · exact List.mem_append.2 (Or.inl h)
          · have h : w.statePath p a = .ok x := h
            rw [hlp] at h; cases h
            simp
        simp only [List.headD_cons]
        split
        · split
          · exact hx
          · unfold addChecked
            split
            · exact hx
            · exact hx
            · split
              · rw [withInv_updateFiles]; exact hx
              · rw [addReader_updateFiles]; exact List.mem_append.2 (Or.inl hx)
        · rw [addReader_updateFiles]; exact List.mem_append.2 (Or.inl hx)
  | reader fs a data =>
    have he : (objAddReader w o fs a data).err = none := he
    show x ∈ (objAddReader w o fs a data).obj.updateFiles
    unfold objAddReader at he ⊢
    split
    · rename_i hw; rw [if_pos hw] at he; cases he
    · rename_i hf; rw [if_neg hf] at he
      split
      · rename_i hw; rw [if_pos hw] at he; cases he
      · rename_i hw; rw [if_neg hw] at he
        split
        · rename_i e hb; rw [hb] at he; cases he
        · rename_i names mp hb
          rw [addReader_updateFiles]
          rcases h with h | ⟨f, hf, h⟩
          · exact List.mem_append.2 (Or.inl h)
          · exact List.mem_append.2 (Or.inr (mapM_mem_of (buildNames_ok hb).1 hf h))
  | delete p d =>
    rcases h with h | h
    · show x ∈ (objIfExists o p d (fun i => deleteFile i p)).obj.updateFiles
      unfold objIfExists
      split
      · exact h
      · split
        · exact h
        · exact h
        · rw [withInv_updateFiles]; exact h
    · exact absurd h id
  | rename a b d =>
    rcases h with h | h
    · show x ∈ (objIfExists o a d (fun i => renameFile i a b)).obj.updateFiles
      unfold objIfExists
      split
      · exact h
      · split
        · exact h
        · exact h
        · rw [withInv_updateFiles]; exact h
    · exact absurd h id
  | beginArea => exact absurd rfl hno.1
  | endArea => exact absurd rfl hno.2
  | ext n d =>
    rcases h with h | h
    · exact h
    · exact absurd h id

/-- without area marks everything submitted is remembered -/
theorem runCalls_updateFiles_of {w : World} {o : Obj} {cs : List Call}
    (hno : ∀ c ∈ cs, c ≠ .beginArea ∧ c ≠ .endArea) (he : (runCalls w o cs).err = none) {x : Str}
    (h : x ∈ o.updateFiles ∨ ∃ c ∈ cs, Submits w x c) : x ∈ (runCalls w o cs).obj.updateFiles := by
  induction cs generalizing o with
  | nil =>
    rcases h with h | ⟨c, hc, _⟩
    · exact h
    · cases hc
  | cons c cs ih =>
    unfold runCalls at he ⊢
    obtain ⟨e1, he⟩ := andThen_split he
    rw [andThen_none e1]
    refine ih (fun c hc => hno c (by simp [hc])) he ?_
    rcases h with h | ⟨c', hc', h⟩
    · exact Or.inl (runCall_updateFiles_of (hno c (by simp)) e1 (Or.inl h))
    · rcases List.mem_cons.1 hc' with rfl | hc'
      · exact Or.inl (runCall_updateFiles_of (hno _ (by simp)) e1 (Or.inr h))
      · exact Or.inr ⟨c', hc', h⟩

/-- **C65** for sessions that mark no areas: of the mirrored part the stored version has exactly the files that were
recorded and submitted.  Missing: sessions with areas (`C65_full_fails_area`). -/
theorem C65_submitted_files_kept_partial {w : World} {inv : Inv} {n : Nat} {s : Session} {base : Str}
    (hw : WF inv n) (he : s.echo = true) (ha : s.after = []) (hr : s.rounds = [])
    (hb : w.statePath ".".toList [] = .ok base) (hno : ∀ c ∈ s.before ++ s.body, c ≠ .beginArea ∧ c ≠ .endArea)
    (herr : (session w inv s).err = none) (hmod : (session w inv s).obj.inv.modified = true) :
    ∀ p d, HasFile (session w inv s).obj.inv (session w inv s).obj.inv.head p d ↔
      HasFile (beforeEnd w inv s).obj.inv (beforeEnd w inv s).obj.inv.head p d ∧
        ((base = ".".toList ∨ base <+: p) → ∃ x ∈ s.before ++ s.body, Submits w p x) := by
  obtain ⟨h1, h2, h3⟩ := session_mirror hw he ha hr hb herr hmod
  intro p d
  rw [h3]
  refine and_congr_right fun _ => imp_congr_right fun _ => ?_
  obtain ⟨v, n1, _⟩ := C02_new_version_copies hw.1 hw.2 s.info.msg s.info.userName s.info.userAddress s.info.now
  have hst : startUpdate w ⟨inv, [], false, []⟩ s.info s.echo s.before =
      runCalls w ⟨v, [], s.echo, []⟩ s.before := by
    unfold startUpdate withInv
    rw [n1]; rfl
  unfold beforeEnd at h1 ⊢
  rw [hst] at h1 ⊢
  obtain ⟨e1, e2⟩ := andThen_split h1
  rw [andThen_none e1]
  constructor
  · intro hx
    rcases runCalls_updateFiles hx with hx | ⟨c, hc, hx⟩
    · rcases runCalls_updateFiles hx with hx | ⟨c, hc, hx⟩
      · cases hx
      · exact ⟨c, List.mem_append.2 (Or.inl hc), hx⟩
    · exact ⟨c, List.mem_append.2 (Or.inr hc), hx⟩
  · rintro ⟨c, hc, hx⟩
    refine runCalls_updateFiles_of (fun c hc => hno c (List.mem_append.2 (Or.inr hc))) e2 ?_
    rcases List.mem_append.1 hc with hc | hc
    · exact Or.inl (runCalls_updateFiles_of (fun c hc => hno c (List.mem_append.2 (Or.inl hc))) e1
        (Or.inr ⟨c, hc, hx⟩))
    · exact Or.inr ⟨c, hc, hx⟩

/-- the mirroring session of the example marks no areas -/
example : ∀ c ∈ exMirror.before ++ exMirror.body, c ≠ .beginArea ∧ c ≠ .endArea := by decide

end Gocfl
