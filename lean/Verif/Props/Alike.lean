import Verif.Model.StoreLemmas

/-! Sessions that do the same with the inventory: the files extensions write for themselves make no difference, and a
content given as a reader is added like a file. -/

namespace Gocfl

/-- the same inventory, and the same names recorded if what is not named is removed -/
structure Alike (o o' : Obj) : Prop where
  inv : o'.inv = o.inv
  echo : o'.echo = o.echo
  files : o.echo = true → o'.updateFiles = o.updateFiles

/-- if the first succeeds so does the second, with an object like it -/
def OutAlike (x x' : Out) : Prop := x.err = none → x'.err = none ∧ Alike x.obj x'.obj

theorem OutAlike.andThen {x x' : Out} {f f' : Obj → Out} (h : OutAlike x x') (hf : ∀ o o', Alike o o' → OutAlike (f o) (f' o')) :
    OutAlike (x.andThen f) (x'.andThen f') := by
  intro he
  obtain ⟨h1, h2⟩ := andThen_split he
  obtain ⟨h3, h4⟩ := h h1
  rw [andThen_none h1, andThen_none h3]
  exact hf _ _ h4 h2

/-- The calls `cs'` are the calls `cs` without the files extensions write for themselves, and with files in place of
readers. -/
inductive CallsAlike (echo : Bool) : List Call → List Call → Prop where
  | nil : CallsAlike echo [] []
  | ext (n : Str) (d : Bytes) {cs cs' : List Call} : CallsAlike echo cs cs' → CallsAlike echo (.ext n d :: cs) cs'
  | same (c : Call) {cs cs' : List Call} : CallsAlike echo cs cs' → CallsAlike echo (c :: cs) (c :: cs')
  | reader (p a : Str) (d : Bytes) {cs cs' : List Call} : echo = false → CallsAlike echo cs cs' →
      CallsAlike echo (.reader [p] a d :: cs) (.add p a d false :: cs')

section
variable {w : World} {o o' : Obj}

theorem Alike.same (h : Alike o o') (e : Option GoErr) : OutAlike ⟨o, e⟩ ⟨o', e⟩ := fun he => ⟨he, h⟩

theorem Alike.write (h : Alike o o') (t t' : List FsOp) : Alike (o.write t) (o'.write t') := ⟨h.inv, h.echo, h.files⟩

theorem Alike.more (h : Alike o o') (u : List Str) :
    Alike { o with updateFiles := o.updateFiles ++ u } { o' with updateFiles := o'.updateFiles ++ u } :=
  ⟨h.inv, h.echo, fun he => by show o'.updateFiles ++ u = o.updateFiles ++ u; rw [h.files he]⟩

theorem Alike.withInv (h : Alike o o') (r : Res Inv) : OutAlike (withInv o r) (withInv o' r) := by
  cases r with
  | error e => exact h.same _
  | ok i => exact fun _ => ⟨rfl, ⟨rfl, h.echo, h.files⟩⟩

theorem Alike.addReader (h : Alike o o') (names : List Str) (mp : Str) (data : Bytes) :
    OutAlike (addReader w o names mp data) (addReader w o' names mp data) := by
  have hm := h.more names
  unfold Gocfl.addReader
  rcases o with ⟨i, u, e, t⟩; rcases o' with ⟨i', u', e', t'⟩; obtain rfl : i' = i := h.inv
  simp only
  cases checksums w (digestAlgs i') data with
  | none => exact (hm.write _ _).same _
  | some cs => exact (hm.write _ _).withInv _

theorem Alike.addChecked (h : Alike o o') (names : List Str) (mp np d : Str) (data : Bytes) :
    OutAlike (addChecked w o names mp np d data) (addChecked w o' names mp np d data) := by
  unfold Gocfl.addChecked
  rcases o with ⟨i, u, e, t⟩; rcases o' with ⟨i', u', e', t'⟩; obtain rfl : i' = i := h.inv
  cases alreadyExists i' np d with
  | error e => exact h.same _
  | ok b =>
    cases b with
    | true => exact h.same _
    | false =>
      simp only
      by_cases hg : getDuplicates i' d ≠ []
      · rw [if_pos hg, if_pos hg]; exact h.withInv _
      · rw [if_neg hg, if_neg hg]; exact h.addReader _ _ _

theorem Alike.ifExists (h : Alike o o') (p d : Str) (f : Inv → Res Inv) : OutAlike (objIfExists o p d f) (objIfExists o' p d f) := by
  unfold objIfExists
  rcases o with ⟨i, u, e, t⟩; rcases o' with ⟨i', u', e', t'⟩; obtain rfl : i' = i := h.inv
  by_cases hw : i'.writeable = false
  · rw [if_pos hw, if_pos hw]; exact h.same _
  · rw [if_neg hw, if_neg hw]
    cases alreadyExists i' p d with
    | error e => exact h.same _
    | ok b =>
      cases b with
      | false => exact h.same _
      | true => exact h.withInv _

theorem Alike.objEcho (h : Alike o o') (he : o.echo = true) : OutAlike (objEcho w o) (objEcho w o') := by
  unfold Gocfl.objEcho
  have hu := h.files he
  rcases o with ⟨i, u, e, t⟩; rcases o' with ⟨i', u', e', t'⟩; obtain rfl : i' = i := h.inv
  obtain rfl : u' = u := hu
  cases w.statePath ".".toList [] with
  | error e => exact h.same _
  | ok base => exact Alike.withInv (o := ⟨i', slicesCompact (sortStr u'), e, t⟩) (o' := ⟨i', slicesCompact (sortStr u'), e', t'⟩) ⟨rfl, h.echo, fun _ => rfl⟩ _

theorem Alike.echoOr (h : Alike o o') : OutAlike (if o.echo then Gocfl.objEcho w o else ok o) (if o'.echo then Gocfl.objEcho w o' else ok o') := by
  rw [h.echo]
  cases he : o.echo with
  | true => simp only [if_true]; exact h.objEcho he
  | false => simp only [Bool.false_eq_true, if_false]; exact h.same _

theorem Alike.call (h : Alike o o') (c : Call) : OutAlike (runCall w o c) (runCall w o' c) := by
  cases c with
  | add p a d c =>
    unfold runCall objAdd
    simp only
    rcases o with ⟨i, u, e, t⟩; rcases o' with ⟨i', u', e', t'⟩; obtain rfl : i' = i := h.inv
    by_cases hw : i'.writeable = false
    · rw [if_pos hw, if_pos hw]; exact h.same _
    · rw [if_neg hw, if_neg hw]
      cases buildNames w i' [p] a with
      | error e => exact h.same _
      | ok x =>
        obtain ⟨names, mp⟩ := x
        simp only
        cases c with
        | false => exact (h.more _).addReader _ _ _
        | true =>
          simp only [if_true]
          cases w.hash i'.digestAlg with
          | none => exact (h.more _).same _
          | some f => exact (h.more _).addChecked _ _ _ _ _
  | reader fs a d =>
    unfold runCall objAddReader
    simp only
    rcases o with ⟨i, u, e, t⟩; rcases o' with ⟨i', u', e', t'⟩; obtain rfl : i' = i := h.inv
    by_cases hf : fs = []
    · rw [if_pos hf, if_pos hf]; exact h.same _
    · rw [if_neg hf, if_neg hf]
      by_cases hw : i'.writeable = false
      · rw [if_pos hw, if_pos hw]; exact h.same _
      · rw [if_neg hw, if_neg hw]
        cases buildNames w i' fs a with
        | error e => exact h.same _
        | ok x => exact h.addReader _ _ _
  | delete p d => exact h.ifExists p d (fun i => deleteFile i p)
  | rename a b d => exact h.ifExists a d (fun i => renameFile i a b)
  | beginArea => exact fun _ => ⟨rfl, ⟨h.inv, h.echo, fun _ => rfl⟩⟩
  | endArea =>
    unfold runCall
    exact h.echoOr.andThen (fun _ _ h => fun _ => ⟨rfl, ⟨h.inv, h.echo, fun _ => rfl⟩⟩)
  | ext n d => exact (h.write _ _).same _

/-- a content given as a reader -/
theorem Alike.reader (h : Alike o o') (he : o.echo = false) (p a : Str) (d : Bytes) :
    OutAlike (runCall w o (.reader [p] a d)) (runCall w o' (.add p a d false)) := by
  unfold runCall objAddReader objAdd
  simp only
  rcases o with ⟨i, u, e, t⟩; rcases o' with ⟨i', u', e', t'⟩; obtain rfl : i' = i := h.inv
  rw [if_neg (List.cons_ne_nil _ _)]
  by_cases hw : i'.writeable = false
  · rw [if_pos hw, if_pos hw]; exact h.same _
  · rw [if_neg hw, if_neg hw]
    cases buildNames w i' [p] a with
    | error e => exact (nomatch ·)
    | ok x =>
      have h' : Alike ⟨i', u, e, t⟩ ⟨i', u' ++ [x.1.headD []], e', t'⟩ :=
        ⟨rfl, h.echo, fun hc => by rw [show e = false from he] at hc; cases hc⟩
      exact h'.addReader _ _ _

/-- an object keeps the mark for mirroring -/
theorem Alike.calls {e : Bool} {cs cs' : List Call} (hc : CallsAlike e cs cs') :
    ∀ {o o' : Obj}, Alike o o' → o.echo = e → OutAlike (runCalls w o cs) (runCalls w o' cs') := by
  induction hc with
  | nil => exact fun h _ => h.same _
  | ext n d _ ih =>
    intro o o' h he
    show OutAlike ((ok _).andThen _) _
    rw [andThen_ok]
    exact ih ⟨h.inv, h.echo, h.files⟩ he
  | same c _ ih =>
    intro o o' h he
    have hk : (runCall w o c).obj.echo = o.echo :=
      (runCall_step (w := w) (U := fun _ _ => True) (o := o) c (fun _ _ => trivial)).echo
    intro herr
    have herr' : ((runCall w o c).andThen fun o => runCalls w o _).err = none := herr
    obtain ⟨h1, h2⟩ := andThen_split herr'
    obtain ⟨h3, h4⟩ := h.call (w := w) c h1
    show ((runCall w o' c).andThen _).err = none ∧ Alike ((runCall w o c).andThen _).obj ((runCall w o' c).andThen _).obj
    rw [andThen_none h1, andThen_none h3]
    exact ih h4 (hk.trans he) h2
  | reader p a d hf _ ih =>
    intro o o' h he
    have hk : (runCall w o (.reader [p] a d)).obj.echo = o.echo :=
      (runCall_step (w := w) (U := fun _ _ => True) (o := o) _ (fun _ _ => trivial)).echo
    intro herr
    have herr' : ((runCall w o (.reader [p] a d)).andThen fun o => runCalls w o _).err = none := herr
    obtain ⟨h1, h2⟩ := andThen_split herr'
    obtain ⟨h3, h4⟩ := h.reader (w := w) (he.trans hf) p a d h1
    show ((runCall w o' _).andThen _).err = none ∧ Alike ((runCall w o _).andThen _).obj ((runCall w o' _).andThen _).obj
    rw [andThen_none h1, andThen_none h3]
    exact ih h4 (hk.trans he) h2

theorem Alike.store (h : Alike o o') (v r : Bool) : OutAlike (storeInventory w o v r) (storeInventory w o' v r) := by
  unfold storeInventory
  rcases o with ⟨i, u, e, t⟩; rcases o' with ⟨i', u', e', t'⟩; obtain rfl : i' = i := h.inv
  by_cases hw : i'.writeable = false
  · rw [if_pos hw, if_pos hw]; exact h.same _
  · rw [if_neg hw, if_neg hw]
    cases w.hash i'.digestAlg with
    | none => exact h.same _
    | some f => exact (h.write _ _).same _

theorem alike_echoOr_echo : (if o.echo then Gocfl.objEcho w o else ok o).obj.echo = o.echo := by
  cases he : o.echo with
  | false => simp only [Bool.false_eq_true, if_false]; exact he
  | true =>
    simp only [if_true]
    unfold Gocfl.objEcho
    cases w.statePath ".".toList [] with
    | error e => exact he
    | ok base =>
      simp only
      cases objEchoDelete o.inv o.updateFiles base with
      | error e => exact he
      | ok i => exact he

theorem Alike.endUpdate (h : Alike o o') {after after' : List Call} (hc : CallsAlike o.echo after after') :
    OutAlike (endUpdate w o after []) (endUpdate w o' after' []) := by
  unfold Gocfl.endUpdate
  have hi := h.inv
  rw [hi]
  by_cases hw : o.inv.writeable = false
  · rw [if_pos hw, if_pos hw]; exact h.same _
  · rw [if_neg hw, if_neg hw]
    by_cases hm : o.inv.modified = false
    · rw [if_pos hm, if_pos hm]; exact h.same _
    · rw [if_neg hm, if_neg hm]
      intro herr
      obtain ⟨h1, h2⟩ := andThen_split herr
      obtain ⟨h3, h4⟩ := h.echoOr (w := w) h1
      have hk := alike_echoOr_echo (w := w) (o := o)
      rw [andThen_none h1, andThen_none h3]
      generalize (if o.echo then Gocfl.objEcho w o else ok o).obj = a at *
      generalize (if o'.echo then Gocfl.objEcho w o' else ok o').obj = a' at *
      refine (Alike.calls hc h4 hk).andThen (fun b b' h => ?_) h2
      rw [h.inv]
      exact (h.withInv _).andThen (fun _ _ h => h.store _ _)

theorem Alike.close (h : Alike o o') (exts exts' : List (Str × Bytes)) : OutAlike (closeObj w o exts) (closeObj w o' exts') := by
  unfold closeObj
  rcases o with ⟨i, u, e, t⟩; rcases o' with ⟨i', u', e', t'⟩; obtain rfl : i' = i := h.inv
  by_cases hw : i'.writeable = false
  · rw [if_pos hw, if_pos hw]; exact h.same _
  · rw [if_neg hw, if_neg hw]
    by_cases hm : i'.modified = false
    · rw [if_pos hm, if_pos hm]; exact h.same _
    · rw [if_neg hm, if_neg hm]
      exact (h.withInv _).andThen (fun a a' h => (h.store _ _).andThen (fun a a' h => (h.write _ _).same _))

/-- Sessions that are alike end with the same inventory. -/
theorem session_alike {inv : Inv} {s s' : Session} (hi : s'.info = s.info) (he : s'.echo = s.echo) (hr : s.rounds = []) (hr' : s'.rounds = [])
    (h1 : CallsAlike s.echo s.before s'.before) (h2 : CallsAlike s.echo s.body s'.body) (h3 : CallsAlike s.echo s.after s'.after)
    (hok : (session w inv s).err = none) :
    (session w inv s').err = none ∧ (session w inv s').obj.inv = (session w inv s).obj.inv := by
  have key : OutAlike (session w inv s) (session w inv s') := by
    unfold session sessionOpen startUpdate
    rw [hi, he, hr, hr']
    have hs : Alike { (⟨inv, [], false, []⟩ : Obj) with echo := s.echo } { (⟨inv, [], false, []⟩ : Obj) with echo := s.echo } :=
      ⟨rfl, rfl, fun _ => rfl⟩
    refine OutAlike.andThen ?_ (fun _ _ h => h.close _ _)
    intro herr
    obtain ⟨g1, g2⟩ := andThen_split herr
    obtain ⟨g3, g4⟩ := andThen_split g1
    obtain ⟨g5, g6⟩ := andThen_split g2
    obtain ⟨k1, k2⟩ := hs.withInv (newVersion inv s.info.msg s.info.userName s.info.userAddress s.info.now) g3
    have e1 : (withInv { (⟨inv, [], false, []⟩ : Obj) with echo := s.echo }
        (newVersion inv s.info.msg s.info.userName s.info.userAddress s.info.now)).obj.echo = s.echo := by
      cases newVersion inv s.info.msg s.info.userName s.info.userAddress s.info.now <;> rfl
    simp only [andThen_none g3] at g1 g4 g5 g6 ⊢
    generalize (withInv { (⟨inv, [], false, []⟩ : Obj) with echo := s.echo }
        (newVersion inv s.info.msg s.info.userName s.info.userAddress s.info.now)).obj = a at *
    obtain ⟨k3, k4⟩ := Alike.calls (w := w) h1 k2 e1 g1
    have e2 : (runCalls w a s.before).obj.echo = s.echo :=
      (runCalls_step (w := w) (U := fun _ _ => True) (o := a) s.before (fun _ _ _ _ => trivial)).echo.trans e1
    rw [andThen_none g1, andThen_none k3]
    generalize (runCalls w a s.before).obj = b at *
    generalize (runCalls w a s'.before).obj = b' at *
    obtain ⟨k5, k6⟩ := Alike.calls (w := w) h2 k4 e2 g5
    have e3 : (runCalls w b s.body).obj.echo = s.echo :=
      (runCalls_step (w := w) (U := fun _ _ => True) (o := b) s.body (fun _ _ _ _ => trivial)).echo.trans e2
    rw [andThen_none g5, andThen_none k5]
    exact k6.endUpdate (by rw [e3]; exact h3) g6
  obtain ⟨k1, k2⟩ := key hok
  exact ⟨k1, k2.inv⟩

end

end Gocfl
