import Verif.Model.Readme
import Verif.Props.MetsStore
import Verif.Props.Rounds

/-!
# C166: the description of the folders

The `README.md` that the content-subpath extension adds to every version.
-/

namespace Gocfl

/-! ## A path with one content in all versions -/

/-- in this state `p` has no digest but `d` -/
def OnlyAs (p d : Str) (s : DMap) : Prop := ∀ e, InSt s p e → e = d

theorem onlyAs_iff {inv : Inv} {p d : Str} :
    StatesOk (OnlyAs p d) inv ↔ ∀ v e, HasFile inv v p e → e = d := by
  constructor
  · rintro h v e ⟨ver, ps, h1, h2, h3⟩
    exact h v ver h1 e ⟨ps, h2, h3⟩
  · rintro h v ver h1 e ⟨ps, h2, h3⟩
    exact h v e ⟨ver, ps, h1, h2, h3⟩

theorem addName_only {inv inv' : Inv} {n : Nat} {mp d e p q : Str} (hg : GapFree inv n) (ho : StatesOk (OnlyAs p d) inv)
    (hq : q = p → e = d) (h : addName inv mp e q = .ok inv') : StatesOk (OnlyAs p d) inv' := by
  refine (addName_headOnly h).states hg.nodup ho ?_
  intro s s' hs hs' hP x hx
  obtain ⟨s0, dup, upd, hs0, _, _, hs1, _⟩ := addName_ok h
  rw [hs] at hs0; cases hs0
  rw [hs'] at hs1; cases hs1
  rw [inSt_stAddName] at hx
  rcases hx with ⟨hx, _⟩ | ⟨_, h1, h2⟩
  · exact hP x hx
  · rw [h2]; exact hq h1.symm

theorem addFile_only {inv inv' : Inv} {n : Nat} {mp d p : Str} {ns : List Str} {cs : AMap Str Str} (hg : GapFree inv n)
    (ho : StatesOk (OnlyAs p d) inv) (hq : ∀ dig, mget cs inv.digestAlg = some dig → p ∈ ns → toLower dig = d)
    (h : addFile inv ns mp cs = .ok inv') : StatesOk (OnlyAs p d) inv' := by
  obtain ⟨dig, hdig, h⟩ := addFile_ok h
  obtain ⟨f1, f2, _, _, f5⟩ := addFixity_fold inv mp cs
  refine (foldlM_inv (P := fun i => GapFree i n ∧ StatesOk (OnlyAs p d) i)
    (f := fun i nm => addName i mp (toLower dig) nm) (l := ns) ?_ _ _ ⟨f5.gapFree hg, ?_⟩ h).2
  · rintro i q i' hm ⟨g1, g2⟩ hi
    exact ⟨(addName_headOnly hi).gapFree g1, addName_only g1 g2 (fun e => hq dig hdig (e ▸ hm)) hi⟩
  · unfold StatesOk; rw [f1]; exact ho

theorem copyFile_only {inv inv' : Inv} {n : Nat} {d e p q : Str} (hg : GapFree inv n) (ho : StatesOk (OnlyAs p d) inv)
    (hq : q = p → e = d) (h : copyFile inv q e = .ok inv') : StatesOk (OnlyAs p d) inv' := by
  refine (copyFile_headOnly h).states hg.nodup ho ?_
  intro s s' hs hs' hP x hx
  obtain ⟨_, s0, hs0, ⟨_, he⟩ | ⟨_, he⟩⟩ := copyFile_ok h
  · rw [he, hs] at hs'; cases hs'
    exact hP x hx
  · rw [hs] at hs0; cases hs0
    rw [he, headState_set_modified hs] at hs'; cases hs'
    rw [inSt_stAppend] at hx
    rcases hx with hx | ⟨h1, h2⟩
    · exact hP x hx
    · rw [h2]; exact hq h1.symm

theorem deleteFile_only {inv inv' : Inv} {n : Nat} {d p q : Str} (hg : GapFree inv n) (ho : StatesOk (OnlyAs p d) inv)
    (h : deleteFile inv q = .ok inv') : StatesOk (OnlyAs p d) inv' := by
  refine (deleteFile_headOnly h).states hg.nodup ho ?_
  intro s s' hs hs' hP x hx
  obtain ⟨s0, hs0, rfl⟩ := deleteFile_ok h
  rw [hs] at hs0; cases hs0
  rw [headState_set_modified hs] at hs'; cases hs'
  exact hP x ((inSt_stDelete _ _ _ _).1 hx).2

theorem renameFile_only {inv inv' : Inv} {n : Nat} {d p a b : Str} (hg : GapFree inv n) (ho : StatesOk (OnlyAs p d) inv)
    (hb : b ≠ p) (h : renameFile inv a b = .ok inv') : StatesOk (OnlyAs p d) inv' := by
  refine (renameFile_headOnly h).states hg.nodup ho ?_
  intro s s' hs hs' hP x hx
  obtain ⟨s0, hs0, rfl⟩ := renameFile_ok h
  rw [hs] at hs0; cases hs0
  rw [headState_set_modified hs] at hs'; cases hs'
  rcases (inSt_stRename _ _ _ _ _).1 hx with ⟨_, hx⟩ | ⟨h1, _⟩
  · exact hP x hx
  · exact absurd h1.symm hb

theorem echoDelete_only {inv inv' : Inv} {n : Nat} {d p pre : Str} {ex : List Str} (hg : GapFree inv n)
    (ho : StatesOk (OnlyAs p d) inv) (h : echoDelete inv ex pre = .ok inv') : StatesOk (OnlyAs p d) inv' := by
  obtain ⟨s, _, h⟩ := echoDelete_ok h
  exact (foldlM_inv (P := fun i => GapFree i n ∧ StatesOk (OnlyAs p d) i) (f := fun i f => deleteFile i f) (by
    rintro i q i' _ ⟨g1, g2⟩ hi
    exact ⟨(deleteFile_headOnly hi).gapFree g1, deleteFile_only g1 g2 hi⟩) _ _ ⟨hg, ho⟩ h).2

/-! ## Sessions -/

/-- the call gives nothing the logical path `p` -/
def Spares (w : World) (p : Str) : Call → Prop
  | .add q a _ _ => w.statePath q a ≠ .ok p
  | .reader fs a _ => ∀ f ∈ fs, w.statePath f a ≠ .ok p
  | .rename _ b _ => b ≠ p
  | _ => True

/-- the content `p` may have, by its digest; `alg`: the digest algorithm of the object -/
structure OnlyHere (alg p d : Str) (o : Obj) : Prop where
  wf : ∃ n, WF o.inv n
  alg : o.inv.digestAlg = alg
  only : StatesOk (OnlyAs p d) o.inv

theorem OnlyHere.sameInv {alg p d : Str} {o o' : Obj} (h : OnlyHere alg p d o) (he : o'.inv = o.inv) : OnlyHere alg p d o' := by
  obtain ⟨h1, h2, h3⟩ := h
  exact ⟨by rw [he]; exact h1, by rw [he]; exact h2, by rw [he]; exact h3⟩

theorem mem_mapM_ok {α β : Type} {f : α → Res β} {l : List α} {r : List β} (h : l.mapM f = .ok r) {y : β} (hy : y ∈ r) :
    ∃ x ∈ l, f x = .ok y := by
  induction l generalizing r with
  | nil => cases h; cases hy
  | cons a l ih =>
    rw [List.mapM_cons] at h
    obtain ⟨b, hb, h⟩ := res_bind_eq_ok.1 h
    obtain ⟨bs, hbs, h⟩ := res_bind_eq_ok.1 h
    cases h
    rcases List.mem_cons.1 hy with rfl | hy
    · exact ⟨a, by simp, hb⟩
    · obtain ⟨x, h1, h2⟩ := ih hbs hy
      exact ⟨x, List.mem_cons_of_mem _ h1, h2⟩

theorem addReader_only {w : World} {o : Obj} {n : Nat} {names : List Str} {mp p d : Str} {data : Bytes}
    (hg : GapFree o.inv n) (ho : StatesOk (OnlyAs p d) o.inv)
    (hq : p ∈ names → ∀ h, w.hash o.inv.digestAlg = some h → toLower (h data) = d) :
    StatesOk (OnlyAs p d) (addReader w o names mp data).obj.inv := by
  unfold addReader
  simp only
  split
  · exact ho
  · rename_i cs hcs
    unfold withInv
    cases hf : addFile o.inv names mp cs with
    | error e => exact ho
    | ok i =>
      refine addFile_only hg ho (fun dig hdig hm => ?_) hf
      obtain ⟨f, hf, rfl⟩ := checksums_get hcs hdig
      exact hq hm f hf

theorem objAdd_only {w : World} {o : Obj} {n : Nat} {q area p d : Str} {data : Bytes} {c : Bool} (hg : GapFree o.inv n)
    (ho : StatesOk (OnlyAs p d) o.inv)
    (hq : w.statePath q area = .ok p → ∀ h, w.hash o.inv.digestAlg = some h → toLower (h data) = d ∧ h data = d) :
    StatesOk (OnlyAs p d) (objAdd w o q area data c).obj.inv := by
  unfold objAdd
  split
  · exact ho
  · split
    · exact ho
    · rename_i names mp hb
      obtain ⟨h1, _⟩ := buildNames_ok hb
      rw [List.mapM_cons] at h1
      obtain ⟨q', hq', h1⟩ := res_bind_eq_ok.1 h1
      cases h1
      have hread : ∀ o1 : Obj, o1.inv = o.inv → StatesOk (OnlyAs p d) (addReader w o1 [q'] mp data).obj.inv := by
        intro o1 e1
        refine addReader_only (by rw [e1]; exact hg) (by rw [e1]; exact ho) ?_
        intro hm h hh
        rw [e1] at hh
        exact (hq (by rw [hq', List.mem_singleton.1 hm]) h hh).1
      simp only
      split
      · split
        · exact ho
        · rename_i h hh
          unfold addChecked
          split
          · exact ho
          · exact ho
          · split
            · unfold withInv
              cases hf : copyFile o.inv q' (h data) with
              | error e => simp only [List.headD_cons]; rw [hf]; exact ho
              | ok i' =>
                simp only [List.headD_cons]; rw [hf]
                exact copyFile_only hg ho (fun e => (hq (by rw [hq', e]) h hh).2) hf
            · exact hread _ rfl
      · exact hread _ rfl

theorem objEcho_only {w : World} {o : Obj} {n : Nat} {p d : Str} (hg : GapFree o.inv n) (ho : StatesOk (OnlyAs p d) o.inv) :
    StatesOk (OnlyAs p d) (if o.echo then objEcho w o else ok o).obj.inv := by
  split
  · unfold objEcho
    split
    · exact ho
    · unfold withInv objEchoDelete
      split
      · rename_i i hi
        exact echoDelete_only hg ho hi
      · exact ho
  · exact ho

theorem only_inv {w : World} {alg p d : Str} {h : Bytes → Str} (hh : w.hash alg = some h) {text : Bytes}
    (hd : h text = d) (hl : toLower d = d) :
    SessionInv w (fun c => Spares w p c ∨ c = readmeCall text) (OnlyHere alg p d) where
  call o c hc ho := by
    have hs := runCall_step (w := w) (o := o) (U := fun _ _ => True) c (fun _ _ => trivial)
    obtain ⟨n, hw⟩ := ho.wf
    obtain ⟨ops, h1, h2⟩ := hs.inv
    have hw' := run_wf hw h1
    refine ⟨⟨_, hw'⟩, hs.headOnly.alg.trans ho.alg, ?_⟩
    have readme : ∀ h', w.hash o.inv.digestAlg = some h' → toLower (h' text) = d ∧ h' text = d := by
      intro h' e
      rw [ho.alg, hh] at e; cases e
      rw [hd]; exact ⟨hl, rfl⟩
    rcases hc with hc | rfl
    · cases c with
      | add q a data c => exact objAdd_only hw.1 ho.only (fun e => absurd e hc)
      | reader fs a data =>
        show StatesOk _ (objAddReader w o fs a data).obj.inv
        unfold objAddReader
        split
        · exact ho.only
        · split
          · exact ho.only
          · split
            · exact ho.only
            · rename_i names mp hb
              obtain ⟨k1, _⟩ := buildNames_ok hb
              refine addReader_only hw.1 ho.only (fun hm => ?_)
              obtain ⟨f, hf, e⟩ := mem_mapM_ok k1 hm
              exact absurd e (hc f hf)
      | delete q e =>
        show StatesOk _ (objIfExists o q e _).obj.inv
        unfold objIfExists
        split
        · exact ho.only
        · split
          · exact ho.only
          · exact ho.only
          · unfold withInv
            split
            · rename_i i hi
              exact deleteFile_only hw.1 ho.only hi
            · exact ho.only
      | rename a b e =>
        show StatesOk _ (objIfExists o a e _).obj.inv
        unfold objIfExists
        split
        · exact ho.only
        · split
          · exact ho.only
          · exact ho.only
          · unfold withInv
            split
            · rename_i i hi
              exact renameFile_only hw.1 ho.only hc hi
            · exact ho.only
      | beginArea => exact ho.only
      | endArea =>
        refine andThen_good (P := fun o => StatesOk (OnlyAs p d) o.inv)
          (objEcho_only (w := w) hw.1 ho.only) (fun hx => hx)
      | ext n data => exact ho.only
    · exact objAdd_only hw.1 ho.only (fun _ => readme)
  echo o ho := by
    obtain ⟨n, hw⟩ := ho.wf
    have hs := echoIf_step (w := w) (o := o) (U := fun _ _ => True)
    obtain ⟨ops, h1, h2⟩ := hs.inv
    exact ⟨⟨_, run_wf hw h1⟩, hs.headOnly.alg.trans ho.alg, objEcho_only hw.1 ho.only⟩
  open_ o e i m u a t ho hv := by
    obtain ⟨n, hw⟩ := ho.wf
    refine ⟨⟨_, step_wf (op := .newVersion m u a t) hw hv⟩, (newVersion_frame hv).2.2.1.trans ho.alg, ?_⟩
    exact newVersion_states hw.1 hw.2 ho.only (fun e h => absurd h (inSt_nil _ _)) hv
  openErr o e ho := ho.sameInv rfl
  store o v r ho := ho.sameInv storeInventory_trace.1
  ext o n data ho := ho.sameInv rfl

/-! ## The path stays -/

/-- `a` becomes `b` by a change of the head that leaves `p` alone -/
structure SameAt (p : Str) (a b : Inv) : Prop where
  only : HeadOnly a b
  file : ∀ e, HasFile b a.head p e ↔ HasFile a a.head p e

theorem SameAt.refl (p : Str) (a : Inv) : SameAt p a a := ⟨HeadOnly.refl _, fun _ => Iff.rfl⟩

theorem SameAt.trans {p : Str} {a b c : Inv} (h : SameAt p a b) (h' : SameAt p b c) : SameAt p a c := by
  refine ⟨h.only.trans h'.only, fun e => ?_⟩
  rw [← h.file e, ← h.only.head]
  exact h'.file e

theorem deleteFile_others {inv inv' : Inv} {n : Nat} {q : Str} (hg : GapFree inv n) (h : deleteFile inv q = .ok inv')
    {p : Str} (hq : q ≠ p) : SameAt p inv inv' := by
  have hh := deleteFile_headOnly h
  refine ⟨hh, fun e => ?_⟩
  obtain ⟨s, hs, he⟩ := deleteFile_ok h
  have hs' : headState inv' = .ok (stDelete s q) := by rw [he]; exact headState_set_modified hs _ _
  rw [hasFile_head hg.nodup hs, ← hh.head, hasFile_head (hh.nodup hg.nodup) hs', inSt_stDelete]
  exact ⟨fun h => h.2, fun h => ⟨fun e => hq e.symm, h⟩⟩

theorem renameFile_others {inv inv' : Inv} {n : Nat} {a b : Str} (hg : GapFree inv n) (h : renameFile inv a b = .ok inv')
    {p : Str} (ha : a ≠ p) (hb : b ≠ p) : SameAt p inv inv' := by
  have hh := renameFile_headOnly h
  refine ⟨hh, fun e => ?_⟩
  obtain ⟨s, hs, he⟩ := renameFile_ok h
  have hs' : headState inv' = .ok (stRename s a b) := by rw [he]; exact headState_set_modified hs _ _
  rw [hasFile_head hg.nodup hs, ← hh.head, hasFile_head (hh.nodup hg.nodup) hs', inSt_stRename]
  constructor
  · rintro (⟨_, h⟩ | ⟨h, _⟩)
    · exact h
    · exact absurd h.symm hb
  · exact fun h => Or.inl ⟨fun e => ha e.symm, h⟩

theorem echoDelete_others {inv inv' : Inv} {n : Nat} {pre : Str} {ex : List Str} (hg : GapFree inv n)
    (h : echoDelete inv ex pre = .ok inv') {p : Str} (hp : hasPrefix p pre = false) : SameAt p inv inv' := by
  obtain ⟨s, _, h⟩ := echoDelete_ok h
  refine (foldlM_inv (P := fun i => GapFree i n ∧ SameAt p inv i) (f := fun i f => deleteFile i f) ?_
    _ _ ⟨hg, SameAt.refl _ _⟩ h).2
  rintro i q i' hm ⟨g1, g2⟩ hi
  refine ⟨(deleteFile_headOnly hi).gapFree g1, g2.trans (deleteFile_others g1 hi ?_)⟩
  rintro rfl
  rw [List.mem_filter, hp] at hm
  simp at hm

/-- if any version has the path, so has the head -/
def Lasting (p : Str) (inv : Inv) : Prop := ∀ v, HasPath inv v p → HasPath inv inv.head p

theorem SameAt.lasting {p : Str} {a b : Inv} {n : Nat} (h : SameAt p a b) (hg : GapFree a n) (hl : Lasting p a) :
    Lasting p b := by
  have key : HasPath a a.head p → HasPath b b.head p := by
    rintro ⟨e, he⟩
    exact ⟨e, by rw [h.only.head]; exact (h.file e).2 he⟩
  rintro v ⟨e, he⟩
  by_cases hv : v = a.head
  · subst hv
    rw [h.only.head]; exact ⟨e, he⟩
  · exact key (hl v ⟨e, (h.only.hasFile_other hg.nodup hv).1 he⟩)

/-- the call gives nothing the logical path `p` and takes it from nothing -/
def Leaves (w : World) (p : Str) (c : Call) : Prop :=
  Spares w p c ∧ (match c with | .delete q _ => q ≠ p | .rename a _ _ => a ≠ p | _ => True)

/-- the mirror deletion looks at a folder that `p` is not in -/
def EchoSpares (w : World) (p : Str) : Prop :=
  ∀ base, w.statePath ".".toList [] = .ok base → base ≠ ".".toList ∧ hasPrefix p base = false

theorem objEcho_sameAt {w : World} {p : Str} (hs : EchoSpares w p) {o : Obj} {n : Nat} (hg : GapFree o.inv n) :
    SameAt p o.inv (if o.echo then objEcho w o else ok o).obj.inv := by
  split
  · unfold objEcho
    split
    · exact SameAt.refl _ _
    · rename_i base hb
      obtain ⟨h1, h2⟩ := hs base hb
      unfold withInv objEchoDelete
      split
      · rename_i i hi
        rw [if_neg h1] at hi
        exact echoDelete_others hg hi h2
      · exact SameAt.refl _ _
  · exact SameAt.refl _ _

theorem call_sameAt {w : World} {p : Str} (hs : EchoSpares w p) {o : Obj} {n : Nat} (hg : GapFree o.inv n) {c : Call}
    (hc : Leaves w p c) : SameAt p o.inv (runCall w o c).obj.inv := by
  obtain ⟨hc, hc'⟩ := hc
  cases c with
  | add q a data c =>
    have := objAdd_within (w := w) (o := o) (p := q) (area := a) (data := data) (c := c) hg
    exact ⟨this.inv, this.files p hc⟩
  | reader fs a data =>
    show SameAt p o.inv (objAddReader w o fs a data).obj.inv
    unfold objAddReader
    split
    · exact SameAt.refl _ _
    · split
      · exact SameAt.refl _ _
      · split
        · exact SameAt.refl _ _
        · rename_i names mp hb
          obtain ⟨k1, _⟩ := buildNames_ok hb
          have := addReader_within (w := w) (o := o) (names := names) (mp := mp) (data := data) hg
          refine ⟨this.inv, this.files p (fun hm => ?_)⟩
          obtain ⟨f, hf, e⟩ := mem_mapM_ok k1 hm
          exact hc f hf e
  | delete q e =>
    show SameAt p o.inv (objIfExists o q e _).obj.inv
    unfold objIfExists
    split
    · exact SameAt.refl _ _
    · split
      · exact SameAt.refl _ _
      · exact SameAt.refl _ _
      · unfold withInv
        split
        · rename_i i hi
          exact deleteFile_others hg hi hc'
        · exact SameAt.refl _ _
  | rename a b e =>
    show SameAt p o.inv (objIfExists o a e _).obj.inv
    unfold objIfExists
    split
    · exact SameAt.refl _ _
    · split
      · exact SameAt.refl _ _
      · exact SameAt.refl _ _
      · unfold withInv
        split
        · rename_i i hi
          exact renameFile_others hg hi hc' hc
        · exact SameAt.refl _ _
  | beginArea => exact SameAt.refl _ _
  | endArea =>
    exact andThen_good (P := fun o' => SameAt p o.inv o'.inv) (objEcho_sameAt (w := w) hs hg) (fun hx => hx)
  | ext n data => exact SameAt.refl _ _

/-- What adding the description does: nothing, or the head has the path with this digest. -/
theorem add_described {w : World} {o : Obj} {n : Nat} (hw : WF o.inv n) {h : Bytes → Str} {text : Bytes} {p q area : Str}
    (hh : w.hash o.inv.digestAlg = some h) (hd : h text ≠ []) (hl : toLower (h text) = h text)
    (hp : w.statePath q area = .ok p) (ho : StatesOk (OnlyAs p (h text)) o.inv) (hlast : Lasting p o.inv) :
    ((objAdd w o q area text true).obj.inv = o.inv ∨
      HasFile (objAdd w o q area text true).obj.inv o.inv.head p (h text)) ∧
    ((objAdd w o q area text true).err = none → HasFile (objAdd w o q area text true).obj.inv o.inv.head p (h text)) := by
  unfold objAdd
  split
  · exact ⟨Or.inl rfl, fun e => by cases e⟩
  · split
    · exact ⟨Or.inl rfl, fun e => by cases e⟩
    · rename_i names mp hb
      obtain ⟨h1, _⟩ := buildNames_ok hb
      rw [List.mapM_cons, hp] at h1
      cases h1
      simp only [if_true, List.headD_cons, List.reverse_nil]
      rw [hh]
      simp only
      unfold addChecked
      split
      · exact ⟨Or.inl rfl, fun e => by cases e⟩
      · rename_i hx
        refine ⟨Or.inl rfl, fun _ => ?_⟩
        obtain ⟨r, hr, hb⟩ := (alreadyExists_ok hd).1 hx
        obtain rfl := of_decide_eq_true hb.symm
        rcases lastDigest_ok hw.1 hr with ⟨hr, _⟩ | ⟨k, d, hr, h1, h2, hk, _⟩
        · cases hr
        · cases hr
          have hpath : HasPath o.inv (verName o.inv.paddingLength k) p := by
            by_contra hc
            rw [(digestAt_none_iff hw.1.nodup).2 hc] at hk
            cases hk
          obtain ⟨e, he⟩ := hlast _ hpath
          have := onlyAs_iff.1 ho _ _ he
          rw [← this]; exact he
      · rename_i hx
        split
        · unfold withInv
          split
          · rename_i i hi
            have hf : HasFile i o.inv.head p (h text) := by
              have hh := copyFile_headOnly hi
              obtain ⟨_, s, hs, ⟨hm, he⟩ | ⟨_, he⟩⟩ := copyFile_ok hi
              · rw [he, hasFile_head hw.1.nodup hs]
                exact mgetD_mem hm
              · have hs' : headState i = .ok (stAppend s (h text) p) := by rw [he]; exact headState_set_modified hs _ _
                rw [← hh.head, hasFile_head (hh.nodup hw.1.nodup) hs', inSt_stAppend]
                exact Or.inr ⟨rfl, rfl⟩
            exact ⟨Or.inr hf, fun _ => hf⟩
          · exact ⟨Or.inl rfl, fun e => by cases e⟩
        · unfold addReader
          simp only
          split
          · exact ⟨Or.inl rfl, fun e => by cases e⟩
          · rename_i cs hcs
            unfold withInv
            split
            · rename_i i hi
              have hf : HasFile i o.inv.head p (h text) := by
                have hho := addFile_headOnly hi
                obtain ⟨dig, hdig, hi⟩ := addFile_ok hi
                obtain ⟨f, hf, rfl⟩ := checksums_get hcs hdig
                have hf : w.hash o.inv.digestAlg = some f := hf
                rw [hh] at hf; cases hf
                rw [hl] at hi
                obtain ⟨f1, f2, _, _, f5⟩ := addFixity_fold o.inv mp cs
                rw [List.foldlM_cons] at hi
                obtain ⟨i1, hi1, hi⟩ := res_bind_eq_ok.1 hi
                cases hi
                obtain ⟨s, dup, upd, hs, hdup, _, hs', _⟩ := addName_ok hi1
                have : dup = false := by
                  obtain ⟨r, hr, hb⟩ := (alreadyExists_ok hd).1 hdup
                  rw [lastDigest_congr (pathDigests_of_versions f1 p)] at hr
                  have : alreadyExists o.inv p (h text) = .ok dup := (alreadyExists_ok hd).2 ⟨r, hr, hb⟩
                  have hx : alreadyExists o.inv p (h text) = .ok false := hx
                  rw [hx] at this; cases this; rfl
                subst this
                have hho : HeadOnly o.inv i := hho
                rw [← hho.head, hasFile_head (hho.nodup hw.1.nodup) hs', inSt_stAddName]
                exact Or.inr ⟨rfl, rfl, rfl⟩
              exact ⟨Or.inr hf, fun _ => hf⟩
            · exact ⟨Or.inl rfl, fun e => by cases e⟩

/-- where the description is in the head, with this content, if it is anywhere -/
structure Described (alg p d : Str) (o : Obj) : Prop where
  here : OnlyHere alg p d o
  lasting : Lasting p o.inv

theorem Described.sameInv {alg p d : Str} {o o' : Obj} (h : Described alg p d o) (he : o'.inv = o.inv) : Described alg p d o' :=
  ⟨h.here.sameInv he, by rw [he]; exact h.lasting⟩

theorem newVersion_lasting {inv inv' : Inv} {n : Nat} {p m u a t : Str} (hw : WF inv n) (hl : Lasting p inv)
    (h : newVersion inv m u a t = .ok inv') : Lasting p inv' := by
  intro v hv
  by_cases hh : v = inv'.head
  · exact hh ▸ hv
  · obtain ⟨s, hs0, hs1, he⟩ := newVersion_gapFree hw.1 hw.2 m u a t
    have h' := h
    rw [he] at h; cases h
    obtain ⟨e, ver, ps, h1, h2, h3⟩ := hv
    rcases List.mem_append.1 h1 with h1 | h1
    · obtain ⟨e', ver', ps', k1, k2, k3⟩ := hl v ⟨e, ver, ps, h1, h2, h3⟩
      have hn : 0 < n := by
        obtain ⟨k, g1, g2, _⟩ := hw.1.mem_keys.1 (mem_mkeys_of_mem h1)
        omega
      refine ⟨e', _, ps', List.mem_append_right _ (List.mem_singleton.2 rfl), ?_, k3⟩
      obtain ⟨old, hold⟩ := hw.1.head_version hn
      show (e', ps') ∈ s
      rw [hs1 old hold]
      rw [mget_of_mem hw.1.nodup k1] at hold
      cases hold
      exact k2
    · simp only [List.mem_singleton, Prod.mk.injEq] at h1
      exact absurd h1.1 hh

theorem described_inv {w : World} {alg p d : Str} {h : Bytes → Str} (hh : w.hash alg = some h) {text : Bytes}
    (hd : h text = d) (hne : d ≠ []) (hl : toLower d = d) (hp : w.statePath readmeName "full".toList = .ok p)
    (hs : EchoSpares w p) :
    SessionInv w (fun c => Leaves w p c ∨ c = readmeCall text) (Described alg p d) where
  call o c hc ho := by
    have hi := (only_inv (p := p) hh hd hl).call o c (hc.imp (fun h => h.1) id) ho.here
    obtain ⟨n, hw⟩ := ho.here.wf
    refine ⟨hi, ?_⟩
    rcases hc with hc | rfl
    · exact (call_sameAt hs hw.1 hc).lasting hw.1 ho.lasting
    · by_cases hn : 0 < n
      · subst hd
        have hho := (runCall_step (w := w) (o := o) (U := fun _ _ => True) (readmeCall text) (fun _ _ => trivial)).headOnly
        rcases (add_described hw (w := w) (by rw [ho.here.alg]; exact hh) hne hl hp ho.here.only ho.lasting).1 with e | e
        · show Lasting p (objAdd w o _ _ text true).obj.inv
          rw [e]; exact ho.lasting
        · intro v _
          exact ⟨h text, by rw [hho.head]; exact e⟩
      · intro v hv
        exfalso
        have hn : n = 0 := by omega
        subst hn
        have hho := (runCall_step (w := w) (o := o) (U := fun _ _ => True) (readmeCall text) (fun _ _ => trivial)).headOnly
        obtain ⟨e, ver, ps, h1, _⟩ := hv
        obtain ⟨k, k1, k2, _⟩ := (hho.gapFree hw.1).mem_keys.1 (mem_mkeys_of_mem h1)
        omega
  echo o ho := by
    obtain ⟨n, hw⟩ := ho.here.wf
    exact ⟨(only_inv (p := p) hh hd hl).echo o ho.here, (objEcho_sameAt hs hw.1).lasting hw.1 ho.lasting⟩
  open_ o e i m u a t ho hv := by
    obtain ⟨n, hw⟩ := ho.here.wf
    exact ⟨(only_inv (p := p) hh hd hl).open_ o e i m u a t ho.here hv, newVersion_lasting hw ho.lasting hv⟩
  openErr o e ho := ho.sameInv rfl
  store o v r ho := ho.sameInv storeInventory_trace.1
  ext o n data ho := ho.sameInv rfl

/-! ## Loading between the sessions -/

theorem reload_wf {f : Str → Str} {a b : Inv} {n : Nat} (h : WF a n) (hs : SameInv (stampInv f a) b) :
    WF b n ∧ ∀ v p d, HasFile b v p d ↔ HasFile a v p d := by
  have hpad : a.paddingLength = b.paddingLength := hs.padding
  have hkeys : (mkeys a.versions).Perm (mkeys b.versions) := by
    have := hs.versionKeys; rwa [stampInv_keys] at this
  have hnv' : (mkeys b.versions).Nodup := hkeys.nodup_iff.1 h.1.nodup
  have hver : ∀ k v, (k, v) ∈ a.versions → ∃ v', (k, v') ∈ b.versions ∧ v.state.Perm v'.state := by
    intro k v hv
    obtain ⟨v', h1, h2⟩ := hs.versions k { v with created := f v.created } (mem_stampInv.2 ⟨v, hv, rfl⟩)
    exact ⟨v', h1, h2.2.2.2.2⟩
  have hback : ∀ k v', (k, v') ∈ b.versions → ∃ v, (k, v) ∈ a.versions ∧ v.state.Perm v'.state := by
    intro k v' hv'
    obtain ⟨v, hv⟩ := mem_mkeys_iff.1 (hkeys.mem_iff.2 (mem_mkeys_iff.2 ⟨v', hv'⟩))
    obtain ⟨v2, h1, h2⟩ := hver k v hv
    have e1 := mget_of_mem hnv' h1
    rw [mget_of_mem hnv' hv'] at e1
    cases e1
    exact ⟨v, hv, h2⟩
  refine ⟨⟨⟨?_, ?_⟩, fun k v' hv' => ?_⟩, fun v p d => ⟨?_, ?_⟩⟩
  · rw [← hpad]; exact hkeys.symm.trans h.1.1
  · rw [← hpad]; exact hs.head.symm.trans h.1.2
  · obtain ⟨v, hv, hp⟩ := hback k v' hv'
    exact (hp.map Prod.fst).nodup_iff.1 (h.2 k v hv)
  · rintro ⟨ver, ps, h1, h2, h3⟩
    obtain ⟨ver', k1, k2⟩ := hback v ver h1
    exact ⟨ver', ps, k1, k2.mem_iff.2 h2, h3⟩
  · rintro ⟨ver, ps, h1, h2, h3⟩
    obtain ⟨ver', k1, k2⟩ := hver v ver h1
    exact ⟨ver', ps, k1, k2.mem_iff.1 h2, h3⟩

/-- What the updates of an object with this extension make of its inventory: first there is no version; then sessions
complete, each one's inventory being loaded by the next (maps in any order, time stamps cut).  At the end of every version
the extension describes its folders, in the order it comes across them; the other calls are in `C`. -/
inductive ReadmeRun (w : World) (m : MdWriter) (folders : List SubFolder) (C : Call → Prop) (alg : Str) : Inv → Prop where
  | start (inv : Inv) : WF inv 0 → inv.digestAlg = alg → ReadmeRun w m folders C alg inv
  | update {inv inv' : Inv} (s : Session) : ReadmeRun w m folders C alg inv →
      (∃ order, order.Perm folders ∧ s.after = [readmeCall (readmeText m order)]) →
      (∀ r ∈ s.rounds, ∃ order, order.Perm folders ∧ r.after = [readmeCall (readmeText m order)]) →
      (∀ c ∈ s.before ++ s.body, C c) → (∀ r ∈ s.rounds, ∀ c ∈ r.before ++ r.body, C c) →
      (session w inv s).err = none → SameInv (stampInv w.time (session w inv s).obj.inv) inv' →
      ReadmeRun w m folders C alg inv'

/-- **C166, full statement** (false): whatever the order in which the folders are described, in every version the
description is one file. -/
def C166_full : Prop :=
  ∀ (w : World) (m : MdWriter) (folders : List SubFolder) (alg : Str) (inv : Inv), HexHash w → LowerHash w →
    (∃ h, w.hash alg = some h) → w.statePath readmeName "full".toList = .ok readmeName → EchoSpares w readmeName →
    ReadmeRun w m folders (Leaves w readmeName) alg inv →
    ∀ v d d', HasFile inv v readmeName d → HasFile inv v readmeName d' → d = d'

/-- the text is the same in whatever order the folders are described -/
def OrderFree (m : MdWriter) (folders : List SubFolder) : Prop :=
  ∀ order, order.Perm folders → readmeText m order = readmeText m folders

theorem orderFree_one {m : MdWriter} {folders : List SubFolder} (h : folders.length ≤ 1) : OrderFree m folders := by
  intro order hp
  match folders, h with
  | [], _ => rw [List.perm_nil.1 hp]
  | [x], _ => rw [List.perm_singleton.1 hp]

theorem run_calls {m : MdWriter} {folders : List SubFolder} (ho : OrderFree m folders) {C : Call → Prop} {s : Session}
    (h1 : ∃ order, order.Perm folders ∧ s.after = [readmeCall (readmeText m order)])
    (h2 : ∀ r ∈ s.rounds, ∃ order, order.Perm folders ∧ r.after = [readmeCall (readmeText m order)])
    (h3 : ∀ c ∈ s.before ++ s.body, C c) (h4 : ∀ r ∈ s.rounds, ∀ c ∈ r.before ++ r.body, C c) :
    ∀ c ∈ s.calls, C c ∨ c = readmeCall (readmeText m folders) := by
  intro c hc
  have hafter : ∀ l : List Call, (∃ order, order.Perm folders ∧ l = [readmeCall (readmeText m order)]) → c ∈ l →
      c = readmeCall (readmeText m folders) := by
    rintro l ⟨order, hp, rfl⟩ hm
    rw [List.mem_singleton.1 hm, ho order hp]
  simp only [Session.calls, List.mem_append, List.mem_flatMap] at hc
  rcases hc with ((hc | hc) | hc) | ⟨r, hr, hc⟩
  · exact Or.inl (h3 c (List.mem_append_left _ hc))
  · exact Or.inl (h3 c (List.mem_append_right _ hc))
  · exact Or.inr (hafter _ h1 hc)
  · simp only [Round.calls, List.mem_append] at hc
    rcases hc with (hc | hc) | hc
    · exact Or.inl (h4 r hr c (List.mem_append_left _ hc))
    · exact Or.inl (h4 r hr c (List.mem_append_right _ hc))
    · exact Or.inr (hafter _ (h2 r hr) hc)

theorem only_run {w : World} {m : MdWriter} {folders : List SubFolder} (ho : OrderFree m folders) {C : Call → Prop}
    (hC : ∀ c, C c → Spares w readmeName c) {alg : Str} {h : Bytes → Str} (hh : w.hash alg = some h) (hL : LowerHash w)
    {inv : Inv} (hr : ReadmeRun w m folders C alg inv) :
    (∃ n, WF inv n) ∧ inv.digestAlg = alg ∧ StatesOk (OnlyAs readmeName (h (readmeText m folders))) inv := by
  induction hr with
  | start inv hw ha =>
    refine ⟨⟨0, hw⟩, ha, onlyAs_iff.2 ?_⟩
    rintro v e ⟨ver, ps, h1, _⟩
    obtain ⟨k, k1, k2, _⟩ := hw.1.mem_keys.1 (mem_mkeys_of_mem h1)
    omega
  | @update inv inv' s _ h1 h2 h3 h4 _ hs ih =>
    obtain ⟨i1, i2, i3⟩ := ih
    have := (only_inv (p := readmeName) hh rfl (hL _ _ _ hh)).session (inv := inv) (s := s) ⟨i1, i2, i3⟩
      (fun c hc => (run_calls ho h1 h2 h3 h4 c hc).imp (hC c) id)
    obtain ⟨n, hw⟩ := this.wf
    obtain ⟨g1, g2⟩ := reload_wf hw hs
    refine ⟨⟨n, g1⟩, hs.digestAlg.symm.trans this.alg, onlyAs_iff.2 (fun v e he => ?_)⟩
    exact onlyAs_iff.1 this.only v e ((g2 _ _ _).1 he)

/-- **C166 (partial).** An object with one folder (more generally: with a text that does not depend on the order), whatever
is done to it as long as nothing else is called `README.md`: in all versions the description has the one content.
Missing: several folders. -/
theorem C166_one_content_partial {w : World} {m : MdWriter} {folders : List SubFolder} (ho : OrderFree m folders)
    {alg : Str} {h : Bytes → Str} (hh : w.hash alg = some h) (hL : LowerHash w) {inv : Inv}
    (hr : ReadmeRun w m folders (Spares w readmeName) alg inv) {v d : Str} (hf : HasFile inv v readmeName d) :
    d = h (readmeText m folders) :=
  onlyAs_iff.1 (only_run ho (fun _ h => h) hh hL hr).2.2 v d hf

/-! ## Every version is described -/

theorem described_run {w : World} (hx : HexHash w) (hL : LowerHash w) {m : MdWriter} {folders : List SubFolder}
    (ho : OrderFree m folders) {alg : Str} {h : Bytes → Str} (hh : w.hash alg = some h)
    (hp : w.statePath readmeName "full".toList = .ok readmeName) (he : EchoSpares w readmeName) {inv : Inv}
    (hr : ReadmeRun w m folders (Leaves w readmeName) alg inv) :
    Described alg readmeName (h (readmeText m folders)) ⟨inv, [], false, []⟩ := by
  induction hr with
  | start inv hw ha =>
    have hno : ∀ v, ¬ HasPath inv v readmeName := by
      rintro v ⟨e, ver, ps, h1, _⟩
      obtain ⟨k, k1, k2, _⟩ := hw.1.mem_keys.1 (mem_mkeys_of_mem h1)
      omega
    exact ⟨⟨⟨0, hw⟩, ha, onlyAs_iff.2 (fun v e he => absurd ⟨e, he⟩ (hno v))⟩, fun v hv => absurd hv (hno v)⟩
  | @update inv inv' s _ h1 h2 h3 h4 _ hs ih =>
    have := (described_inv hh rfl (hx _ _ _ hh).1 (hL _ _ _ hh) hp he).session (s := s) ih
      (run_calls ho h1 h2 h3 h4)
    obtain ⟨n, hw⟩ := this.here.wf
    obtain ⟨g1, g2⟩ := reload_wf hw hs
    refine ⟨⟨⟨n, g1⟩, hs.digestAlg.symm.trans this.here.alg, onlyAs_iff.2 (fun v e he => ?_)⟩, ?_⟩
    · exact onlyAs_iff.1 this.here.only v e ((g2 _ _ _).1 he)
    · rintro v ⟨e, he⟩
      obtain ⟨e', he'⟩ := this.lasting v ⟨e, (g2 _ _ _).1 he⟩
      have hhead : inv'.head = (session w inv s).obj.inv.head := hs.head.symm
      refine ⟨e', (g2 _ _ _).2 ?_⟩
      rw [hhead]; exact he'

theorem stage_described {w : World} {m : MdWriter} {folders : List SubFolder} {alg : Str} {h : Bytes → Str} (hh : w.hash alg = some h)
    (hx : HexHash w) (hL : LowerHash w) (hp : w.statePath readmeName "full".toList = .ok readmeName) (he : EchoSpares w readmeName)
    {o : Obj} (hd : Described alg readmeName (h (readmeText m folders)) o) (hm : o.inv.modified = true)
    (hok : (stage w o [readmeCall (readmeText m folders)]).err = none) :
    Described alg readmeName (h (readmeText m folders)) (stage w o [readmeCall (readmeText m folders)]).obj ∧
    (stage w o [readmeCall (readmeText m folders)]).obj.inv.modified = true ∧
    HasFile (stage w o [readmeCall (readmeText m folders)]).obj.inv
      (stage w o [readmeCall (readmeText m folders)]).obj.inv.head readmeName (h (readmeText m folders)) := by
  have hI := described_inv (w := w) hh (text := readmeText m folders) rfl (hx _ _ _ hh).1 (hL _ _ _ hh) hp he
  unfold stage at hok ⊢
  obtain ⟨h1, h2⟩ := andThen_split hok
  rw [andThen_none h1]
  have hd1 := hI.echo o hd
  have hm1 := (echoIf_step (w := w) (o := o) (U := fun _ _ => True)).modified hm
  generalize (if o.echo then objEcho w o else ok o).obj = o1 at hd1 hm1 h2 ⊢
  obtain ⟨h3, h4⟩ := andThen_split h2
  rw [andThen_none h3]
  have hrun : runCalls w o1 [readmeCall (readmeText m folders)] = objAdd w o1 readmeName "full".toList (readmeText m folders) true := by
    show (objAdd w o1 _ _ _ true).andThen ok = _
    rw [andThen_ok_right]
  rw [hrun] at h3 h4 ⊢
  have hd2 := hI.call o1 _ (Or.inr rfl) hd1
  have hm2 := (runCall_step (w := w) (o := o1) (U := fun _ _ => True) (readmeCall (readmeText m folders)) (fun _ _ => trivial)).modified hm1
  have hho := (runCall_step (w := w) (o := o1) (U := fun _ _ => True) (readmeCall (readmeText m folders)) (fun _ _ => trivial)).headOnly.head
  obtain ⟨n, hw⟩ := hd1.here.wf
  have hf := (add_described hw (w := w) (by rw [hd1.here.alg]; exact hh) (hx _ _ _ hh).1 (hL _ _ _ hh) hp hd1.here.only hd1.lasting).2 h3
  have hd2 : Described alg readmeName (h (readmeText m folders)) (objAdd w o1 readmeName "full".toList (readmeText m folders) true).obj := hd2
  have hm2 : (objAdd w o1 readmeName "full".toList (readmeText m folders) true).obj.inv.modified = true := hm2
  have hho : (objAdd w o1 readmeName "full".toList (readmeText m folders) true).obj.inv.head = o1.inv.head := hho
  rw [← hho] at hf
  generalize (objAdd w o1 readmeName "full".toList (readmeText m folders) true).obj = o2 at hd2 hm2 hf h4 ⊢
  rw [clean_modified hm2] at h4 ⊢
  rw [show (withInv o2 (Except.ok o2.inv)).andThen (fun o => storeInventory w o true false) = storeInventory w o2 true false from rfl]
  have hst := storeInventory_trace (w := w) (o := o2) (v := true) (r := false)
  rw [hst.1]
  exact ⟨hI.store _ _ _ hd2, hm2, hf⟩

theorem endUpdate_described {w : World} {m : MdWriter} {folders : List SubFolder} {alg : Str} {h : Bytes → Str}
    (hh : w.hash alg = some h) (hx : HexHash w) (hL : LowerHash w) (hp : w.statePath readmeName "full".toList = .ok readmeName)
    (he : EchoSpares w readmeName) {rounds : List Round} {o : Obj}
    (hd : Described alg readmeName (h (readmeText m folders)) o) (hw : o.inv.writeable = true) (hm : o.inv.modified = true)
    (h2 : ∀ r ∈ rounds, r.after = [readmeCall (readmeText m folders)])
    (h4 : ∀ r ∈ rounds, ∀ c ∈ r.before ++ r.body, Leaves w readmeName c)
    (hok : (endUpdate w o [readmeCall (readmeText m folders)] rounds).err = none) :
    HasFile (endUpdate w o [readmeCall (readmeText m folders)] rounds).obj.inv
      (endUpdate w o [readmeCall (readmeText m folders)] rounds).obj.inv.head readmeName (h (readmeText m folders)) := by
  have hI := described_inv (w := w) hh (text := readmeText m folders) rfl (hx _ _ _ hh).1 (hL _ _ _ hh) hp he
  induction rounds generalizing o with
  | nil =>
    rw [endUpdate_stage _ hw hm] at hok ⊢
    exact (stage_described hh hx hL hp he hd hm hok).2.2
  | cons r rs ih =>
    rw [endUpdate_stages _ _ _ hw hm] at hok ⊢
    obtain ⟨k1, hok⟩ := andThen_split hok
    rw [andThen_none k1]
    obtain ⟨d1, d2, _⟩ := stage_described hh hx hL hp he hd hm k1
    generalize (stage w o [readmeCall (readmeText m folders)]).obj = o1 at d1 d2 hok ⊢
    obtain ⟨k2, hok⟩ := andThen_split hok
    rw [andThen_none k2]
    have hb := h4 r (by simp)
    have e1 := hI.start d1 r.info false (cs := r.before) (fun c hc => Or.inl (hb c (List.mem_append_left _ hc)))
    have e2 : (startUpdate w o1 r.info false r.before).obj.inv.modified = true ∧
        (startUpdate w o1 r.info false r.before).obj.inv.writeable = true := by
      unfold startUpdate at k2 ⊢
      obtain ⟨j1, j2⟩ := andThen_split k2
      rw [andThen_none j1]
      cases hv : newVersion o1.inv r.info.msg r.info.userName r.info.userAddress r.info.now with
      | error e => rw [hv] at j1; cases j1
      | ok i =>
        obtain ⟨_, _, _, f1, _, _, _, f2, _⟩ := newVersion_frame hv
        have hs := runCalls_step (w := w) (o := (withInv { o1 with echo := false } (.ok i)).obj) (U := fun _ _ => True)
          r.before (fun _ _ _ _ => trivial)
        exact ⟨hs.modified (f2.trans d2), hs.headOnly.wr.trans f1⟩
    generalize (startUpdate w o1 r.info false r.before).obj = o2 at e1 e2 hok ⊢
    obtain ⟨k3, hok⟩ := andThen_split hok
    rw [andThen_none k3]
    have g1 := hI.calls e1 (cs := r.body) (fun c hc => Or.inl (hb c (List.mem_append_right _ hc)))
    have hs := runCalls_step (w := w) (o := o2) (U := fun _ _ => True) r.body (fun _ _ _ _ => trivial)
    rw [h2 r (by simp)] at hok ⊢
    exact ih g1 (hs.headOnly.wr.trans e2.2) (hs.modified e2.1) (fun r hr => h2 r (List.mem_cons_of_mem _ hr))
      (fun r hr => h4 r (List.mem_cons_of_mem _ hr)) hok

/-- **C166 (partial).** An object with one folder, to which nothing else is done under the name `README.md`, and not
emptied of it by mirroring (its base folder is another): each session that changes anything leaves the description in
the version it makes, saying what is to be said. -/
theorem C166_described_partial {w : World} (hx : HexHash w) (hL : LowerHash w) {m : MdWriter} {folders : List SubFolder}
    (ho : OrderFree m folders) {alg : Str} {h : Bytes → Str} (hh : w.hash alg = some h)
    (hp : w.statePath readmeName "full".toList = .ok readmeName) (he : EchoSpares w readmeName) {inv : Inv}
    (hr : ReadmeRun w m folders (Leaves w readmeName) alg inv) {s : Session}
    (h1 : ∃ order, order.Perm folders ∧ s.after = [readmeCall (readmeText m order)])
    (h2 : ∀ r ∈ s.rounds, ∃ order, order.Perm folders ∧ r.after = [readmeCall (readmeText m order)])
    (h3 : ∀ c ∈ s.before ++ s.body, Leaves w readmeName c) (h4 : ∀ r ∈ s.rounds, ∀ c ∈ r.before ++ r.body, Leaves w readmeName c)
    (hok : (session w inv s).err = none) (hm : (session w inv s).obj.inv.modified = true) :
    HasFile (session w inv s).obj.inv (session w inv s).obj.inv.head readmeName (h (readmeText m folders)) := by
  have hI := described_inv (w := w) hh (text := readmeText m folders) rfl (hx _ _ _ hh).1 (hL _ _ _ hh) hp he
  have hd := described_run hx hL ho hh hp he hr
  obtain ⟨order, hpm, hafter⟩ := h1
  rw [ho order hpm] at hafter
  have h2' : ∀ r ∈ s.rounds, r.after = [readmeCall (readmeText m folders)] := by
    intro r hr
    obtain ⟨order, hpm, e⟩ := h2 r hr
    rw [e, ho order hpm]
  unfold session at hok hm ⊢
  obtain ⟨k1, hok⟩ := andThen_split hok
  rw [andThen_none k1] at hm ⊢
  have hinv : (closeObj w (sessionOpen w inv s).obj s.exts).obj.inv = (sessionOpen w inv s).obj.inv := by
    rcases closeObj_cases w (sessionOpen w inv s).obj s.exts with ⟨e, _⟩ | ⟨_, _, _, e, _⟩ | ⟨_, _, _, _, e⟩
    · rw [e]; rfl
    · rw [e]
    · rw [e]; rfl
  rw [hinv] at hm ⊢
  unfold sessionOpen at k1 hm ⊢
  obtain ⟨k2, k1⟩ := andThen_split k1
  rw [andThen_none k2] at hm ⊢
  have e1 := hI.start hd s.info s.echo (cs := s.before) (fun c hc => Or.inl (h3 c (List.mem_append_left _ hc)))
  have e2 : (startUpdate w ⟨inv, [], false, []⟩ s.info s.echo s.before).obj.inv.writeable = true := by
    unfold startUpdate at k2 ⊢
    obtain ⟨j1, j2⟩ := andThen_split k2
    rw [andThen_none j1]
    cases hv : newVersion inv s.info.msg s.info.userName s.info.userAddress s.info.now with
    | error e => rw [hv] at j1; cases j1
    | ok i =>
      obtain ⟨_, _, _, f1, _⟩ := newVersion_frame hv
      have hs := runCalls_step (w := w) (o := (withInv (⟨inv, [], s.echo, []⟩ : Obj) (.ok i)).obj) (U := fun _ _ => True)
        s.before (fun _ _ _ _ => trivial)
      exact hs.headOnly.wr.trans f1
  generalize (startUpdate w ⟨inv, [], false, []⟩ s.info s.echo s.before).obj = o2 at e1 e2 k1 hm ⊢
  obtain ⟨k3, k1⟩ := andThen_split k1
  rw [andThen_none k3] at hm ⊢
  have g1 := hI.calls e1 (cs := s.body) (fun c hc => Or.inl (h3 c (List.mem_append_right _ hc)))
  have hs := runCalls_step (w := w) (o := o2) (U := fun _ _ => True) s.body (fun _ _ _ _ => trivial)
  have g2 := hs.headOnly.wr.trans e2
  generalize (runCalls w o2 s.body).obj = o3 at g1 g2 k1 hm ⊢
  cases hmod : o3.inv.modified with
  | false =>
    rw [endUpdate_unmodified hmod] at hm
    have hm : o3.inv.modified = true := hm
    rw [hmod] at hm; cases hm
  | true =>
    rw [hafter] at k1 ⊢
    exact endUpdate_described hh hx hL hp he g1 g2 hmod h2' h4 k1

/-! ## Several folders -/

/-- A description that says again what an earlier one said, another one having been in between: the file has both
contents. -/
theorem C166_both {w : World} {o : Obj} {n : Nat} (hw : WF o.inv n) {h : Bytes → Str} {text : Bytes} {p q area d : Str}
    (hh : w.hash o.inv.digestAlg = some h) (hp : w.statePath q area = .ok p)
    (hlast : alreadyExists o.inv p (h text) = .ok false) (hold : getDuplicates o.inv (h text) ≠ [])
    (hf : HasFile o.inv o.inv.head p d) (hok : (objAdd w o q area text true).err = none) :
    HasFile (objAdd w o q area text true).obj.inv o.inv.head p d ∧
    HasFile (objAdd w o q area text true).obj.inv o.inv.head p (h text) := by
  unfold objAdd at hok ⊢
  split at hok
  · cases hok
  · rename_i hwr
    rw [if_neg hwr]
    cases hb : buildNames w o.inv [q] area with
    | error e => rw [hb] at hok; cases hok
    | ok y =>
      obtain ⟨names, mp⟩ := y
      rw [hb] at hok
      obtain ⟨h1, _⟩ := buildNames_ok hb
      rw [List.mapM_cons, hp] at h1
      cases h1
      simp only [if_true, List.headD_cons, hh] at hok ⊢
      unfold addChecked at hok ⊢
      simp only [hlast] at hok ⊢
      rw [if_pos hold] at hok ⊢
      cases hc : copyFile o.inv p (h text) with
      | error e => rw [hc] at hok; cases hok
      | ok i =>
        have hho := copyFile_headOnly hc
        show HasFile i o.inv.head p d ∧ HasFile i o.inv.head p (h text)
        obtain ⟨_, s, hs, ⟨hm, e⟩ | ⟨_, e⟩⟩ := copyFile_ok hc
        · rw [e]
          refine ⟨hf, ?_⟩
          rw [hasFile_head hw.1.nodup hs]
          exact mgetD_mem hm
        · have hs' : headState i = .ok (stAppend s (h text) p) := by rw [e]; exact headState_set_modified hs _ _
          rw [hasFile_head hw.1.nodup hs] at hf
          rw [← hho.head, hasFile_head (hho.nodup hw.1.nodup) hs', hasFile_head (hho.nodup hw.1.nodup) hs', inSt_stAppend, inSt_stAppend]
          exact ⟨Or.inl hf, Or.inr ⟨rfl, rfl⟩⟩

/-! ## Cases -/

theorem sameInv_stamp (inv : Inv) (m wr : Bool) (f : Str → Str) :
    SameInv (stampInv f inv) { stampInv f inv with modified := m, writeable := wr } where
  id := rfl
  spec := rfl
  digestAlg := rfl
  head := rfl
  contentDirectory := rfl
  padding := rfl
  manifest := List.Perm.refl _
  versionKeys := List.Perm.refl _
  versions _ v h := ⟨v, h, rfl, rfl, rfl, rfl, List.Perm.refl _⟩
  fixity _ m h := ⟨m, h, List.Perm.refl _⟩
  fixity' _ m h := ⟨m, h, List.Perm.refl _⟩

/-- a digest that depends on the order of the bytes -/
def rdHash (b : Bytes) : Str := 'a' :: b.map (fun x => if x % 2 = 0 then '0' else '1')

/-- the extension with two folders: files go to `data` unless told otherwise -/
def rdSub : SubPathExt := ⟨"content".toList, [("content".toList, "data".toList), ("metadata".toList, "meta".toList)]⟩

def rdPath (p a : Str) : Res Str :=
  match rdSub.build p a with
  | .ok x => .ok x
  | .error _ => .error (.error "invalid area")

def rdWorld : World :=
  { exWorld with
    hash := fun a => if a = "sha512".toList then some rdHash else none
    statePath := rdPath
    manifestPath := rdPath }

theorem rdWorld_hash {a : Str} {h : Bytes → Str} (e : rdWorld.hash a = some h) : h = rdHash := by
  have e : (if a = "sha512".toList then some rdHash else none) = some h := e
  split at e
  · cases e; rfl
  · cases e

theorem rdHash_char {b : Bytes} {c : Char} (h : c ∈ rdHash b) : c = 'a' ∨ c = '0' ∨ c = '1' := by
  rcases List.mem_cons.1 h with h | h
  · exact Or.inl h
  · obtain ⟨x, _, rfl⟩ := List.mem_map.1 h
    split
    · exact Or.inr (Or.inl rfl)
    · exact Or.inr (Or.inr rfl)

theorem rdWorld_hex : HexHash rdWorld := by
  intro a h b e
  rw [rdWorld_hash e]
  refine ⟨List.cons_ne_nil _ _, fun c hc => ?_⟩
  rcases rdHash_char hc with rfl | rfl | rfl <;> decide

theorem rdWorld_lower : LowerHash rdWorld := by
  intro a h b e
  rw [rdWorld_hash e]
  unfold toLower
  rw [List.map_congr_left (g := id) (fun c hc => by rcases rdHash_char hc with rfl | rfl | rfl <;> decide), List.map_id]

theorem rdWorld_name : rdWorld.statePath readmeName "full".toList = .ok readmeName := by decide

theorem rdWorld_echo : EchoSpares rdWorld readmeName := by
  intro base hb
  have : rdWorld.statePath ".".toList [] = .ok "data".toList := by decide
  rw [this] at hb; cases hb
  exact ⟨by decide, by decide⟩

/-- headings and text as they are, `#` before -/
def rdMd : MdWriter := ⟨[35], asBytes, asBytes⟩

def rdA : SubFolder := ⟨"data".toList, "x".toList⟩
def rdB : SubFolder := ⟨"meta".toList, "y".toList⟩

/-- an update adding a file with content `b`, the folders described in this order -/
def rdSession (name : String) (b : Bytes) (order : List SubFolder) : Session :=
  { exSession [] with
    echo := true
    body := [.add name.toList [] b true]
    after := [readmeCall (readmeText rdMd order)] }

def rdNext (inv : Inv) (s : Session) : Inv :=
  { stampInv rdWorld.time (session rdWorld inv s).obj.inv with modified := false, writeable := false }

def rdInv0 : Inv := newInv "a".toList "1.1".toList "sha512".toList "content".toList []

theorem rd_leaves (n : String) (b : Bytes) (hn : rdWorld.statePath n.toList [] ≠ .ok readmeName) (order : List SubFolder) :
    ∀ c ∈ (rdSession n b order).before ++ (rdSession n b order).body, Leaves rdWorld readmeName c := by
  intro c hc
  have : c = .add n.toList [] b true := by simpa [rdSession, exSession] using hc
  subst this
  exact ⟨hn, trivial⟩

theorem rd_update {folders order : List SubFolder} {inv : Inv} {n : String} {b : Bytes}
    (hr : ReadmeRun rdWorld rdMd folders (Leaves rdWorld readmeName) "sha512".toList inv) (hp : order.Perm folders)
    (hn : rdWorld.statePath n.toList [] ≠ .ok readmeName) (hok : (session rdWorld inv (rdSession n b order)).err = none) :
    ReadmeRun rdWorld rdMd folders (Leaves rdWorld readmeName) "sha512".toList (rdNext inv (rdSession n b order)) :=
  .update _ hr ⟨order, hp, rfl⟩ (fun r h => by cases h) (rd_leaves n b hn order) (fun r h => by cases h) hok (sameInv_stamp _ _ _ _)

theorem rd_start (folders : List SubFolder) :
    ReadmeRun rdWorld rdMd folders (Leaves rdWorld readmeName) "sha512".toList rdInv0 :=
  .start _ (newInv_wf _ _ _ _ _) rfl

/-- Case of `C166_described_partial` and `C166_one_content_partial`: two updates of an object with one folder, in mirroring
mode.  (The second one removes the file of the first, not the description.) -/
example :
    HasFile (session rdWorld (rdNext rdInv0 (rdSession "f" [7] [rdA])) (rdSession "g" [8] [rdA])).obj.inv
      (session rdWorld (rdNext rdInv0 (rdSession "f" [7] [rdA])) (rdSession "g" [8] [rdA])).obj.inv.head readmeName
      (rdHash (readmeText rdMd [rdA])) :=
  C166_described_partial rdWorld_hex rdWorld_lower (orderFree_one (by decide)) (alg := "sha512".toList) rfl rdWorld_name rdWorld_echo
    (rd_update (rd_start [rdA]) (List.Perm.refl _) (by decide) (by decide +kernel))
    ⟨[rdA], List.Perm.refl _, rfl⟩ (fun r h => by cases h) (rd_leaves _ _ (by decide) _) (fun r h => by cases h)
    (by decide +kernel) (by decide +kernel)

/-- is the digest listed -/
def listedAs (inv : Inv) (v p d : Str) : Bool :=
  inv.versions.any (fun e => decide (e.1 = v) && e.2.state.any (fun x => decide (x.1 = d) && decide (p ∈ x.2)))

theorem hasFile_listed {inv : Inv} {v p d : Str} (h : listedAs inv v p d = true) : HasFile inv v p d := by
  unfold listedAs at h
  obtain ⟨e, he, h⟩ := List.any_eq_true.1 h
  rw [Bool.and_eq_true] at h
  obtain ⟨x, hx, h2⟩ := List.any_eq_true.1 h.2
  rw [Bool.and_eq_true] at h2
  obtain rfl := of_decide_eq_true h.1
  obtain rfl := of_decide_eq_true h2.1
  exact ⟨e.2, x.2, he, hx, of_decide_eq_true h2.2⟩

def rdInv1 : Inv := rdNext rdInv0 (rdSession "f" [7] [rdA, rdB])
def rdInv2 : Inv := rdNext rdInv1 (rdSession "g" [8, 8] [rdB, rdA])
def rdInv3 : Inv := rdNext rdInv2 (rdSession "h" [9, 9, 9] [rdA, rdB])

theorem rd_run2 : ReadmeRun rdWorld rdMd [rdA, rdB] (Leaves rdWorld readmeName) "sha512".toList rdInv2 :=
  rd_update (rd_update (rd_start _) (List.Perm.refl _) (by decide) (by decide +kernel))
    (List.Perm.swap _ _ _) (by decide) (by decide +kernel)

theorem wf_inv (w : World) : SessionInv w (fun _ => True) (fun o => ∃ n, WF o.inv n) where
  call o c _ h := by
    obtain ⟨n, hw⟩ := h
    obtain ⟨ops, h1, _⟩ := (runCall_step (w := w) (o := o) (U := fun _ _ => True) c (fun _ _ => trivial)).inv
    exact ⟨_, run_wf hw h1⟩
  echo o h := by
    obtain ⟨n, hw⟩ := h
    obtain ⟨ops, h1, _⟩ := (echoIf_step (w := w) (o := o) (U := fun _ _ => True)).inv
    exact ⟨_, run_wf hw h1⟩
  open_ o e i m u a t h hv := by
    obtain ⟨n, hw⟩ := h
    exact ⟨_, step_wf (op := .newVersion m u a t) hw hv⟩
  openErr o e h := h
  store o v r h := by rw [storeInventory_trace.1]; exact h
  ext o n d h := h

theorem ReadmeRun.wf {w : World} {m : MdWriter} {folders : List SubFolder} {C : Call → Prop} {alg : Str} {inv : Inv}
    (hr : ReadmeRun w m folders C alg inv) : ∃ n, WF inv n := by
  induction hr with
  | start inv hw ha => exact ⟨0, hw⟩
  | @update inv inv' s _ h1 h2 h3 h4 _ hs ih =>
    obtain ⟨k, hk⟩ := (wf_inv w).session (inv := inv) (s := s) ih (fun _ _ => trivial)
    exact ⟨k, (reload_wf hk hs).1⟩

/-- Case of `C166_both`: the object with two versions, open for writing. -/
example :
    HasFile (objAdd rdWorld ⟨{ rdInv2 with writeable := true }, [], false, []⟩ readmeName "full".toList
      (readmeText rdMd [rdA, rdB]) true).obj.inv rdInv2.head readmeName (rdHash (readmeText rdMd [rdB, rdA])) := by
  obtain ⟨n, h1, h2⟩ := rd_run2.wf
  exact (C166_both (w := rdWorld) (o := ⟨{ rdInv2 with writeable := true }, [], false, []⟩) (n := n)
    ⟨⟨h1.1, h1.2⟩, h2⟩ (h := rdHash) rfl rdWorld_name (by decide +kernel) (by decide +kernel)
    (hasFile_listed (by decide +kernel)) (by decide +kernel)).1

/-- Two folders, described in one order, then in the other, then in the first one again: in the third version
`README.md` has both contents. -/
theorem C166_full_fails : ¬ C166_full := by
  intro hf
  have hr : ReadmeRun rdWorld rdMd [rdA, rdB] (Leaves rdWorld readmeName) "sha512".toList rdInv3 :=
    rd_update rd_run2 (List.Perm.refl _) (by decide) (by decide +kernel)
  have := hf rdWorld rdMd [rdA, rdB] "sha512".toList rdInv3 rdWorld_hex rdWorld_lower ⟨rdHash, rfl⟩ rdWorld_name rdWorld_echo hr
    "v3".toList (rdHash (readmeText rdMd [rdA, rdB])) (rdHash (readmeText rdMd [rdB, rdA]))
    (hasFile_listed (by decide +kernel)) (hasFile_listed (by decide +kernel))
  exact absurd this (by decide +kernel)

end Gocfl
