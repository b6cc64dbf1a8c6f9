import Verif.Props.RoundTrip
import Verif.Props.RootCheck

/-! # The command line: the folders named in it (C114), and how commands end (C115) -/

namespace Gocfl

/-! ## Arguments of the form `area:path` -/

/-- the argument names the area `a` and the folder `p` in the form that is understood -/
structure AreaArg (s a p : Str) : Prop where
  eq : s = a ++ ':' :: p
  len : 2 ≤ a.length
  lower : ∀ c ∈ a, 'a' ≤ c ∧ c ≤ 'z'
  oneLine : '\n' ∉ p

theorem AreaArg.noColon {s a p : Str} (h : AreaArg s a p) : ':' ∉ a := fun hc => by
  have := (h.lower _ hc)
  revert this; decide

theorem takeWhile_colon {a p : Str} (h : ':' ∉ a) : (a ++ ':' :: p).takeWhile (fun c => decide (c ≠ ':')) = a ∧
    (a ++ ':' :: p).dropWhile (fun c => decide (c ≠ ':')) = ':' :: p := by
  induction a with
  | nil => simp
  | cons c a ih =>
    have hc : c ≠ ':' := fun h' => h (h' ▸ List.mem_cons_self ..)
    obtain ⟨h1, h2⟩ := ih (fun h' => h (List.mem_cons_of_mem _ h'))
    simp only [List.cons_append, List.takeWhile_cons, List.dropWhile_cons, hc, ne_eq, not_false_eq_true, decide_true, if_true]
    exact ⟨congrArg (c :: ·) h1, h2⟩

/-- the regular expression matches exactly the arguments of this form, with these groups -/
theorem areaArg_iff {s a p : Str} : areaArg s = some (a, p) ↔ AreaArg s a p := by
  constructor
  · intro h
    unfold areaArg at h
    simp only at h
    cases hd : s.dropWhile (fun c => decide (c ≠ ':')) with
    | nil => rw [hd] at h; cases h
    | cons x r =>
      rw [hd] at h
      simp only at h
      split at h
      · rename_i hc
        cases h
        have hx : x = ':' := by
          have := List.head?_dropWhile_not (fun c => decide (c ≠ ':')) s
          rw [hd] at this
          simpa using this
        refine ⟨?_, hc.1, fun c hca => of_decide_eq_true (List.all_eq_true.1 hc.2.1 c hca), hc.2.2⟩
        have := List.takeWhile_append_dropWhile (p := fun c => decide (c ≠ ':')) (l := s)
        rw [hd, hx] at this
        exact this.symm
      · cases h
  · intro h
    obtain ⟨h1, h2⟩ := takeWhile_colon (p := p) h.noColon
    unfold areaArg
    rw [h.eq]
    simp only [h1, h2]
    rw [if_pos ⟨h.len, List.all_eq_true.2 fun c hc => decide_eq_true (h.lower c hc), h.oneLine⟩]

theorem AreaArg.unique {s a p a' p' : Str} (h : AreaArg s a p) (h' : AreaArg s a' p') : a = a' ∧ p = p' := by
  have := (areaArg_iff.2 h).symm.trans (areaArg_iff.2 h')
  cases this
  exact ⟨rfl, rfl⟩

/-- no area is named twice -/
def DistinctAreas (args : List Str) : Prop := args.Pairwise (fun x y => ∀ a p q, AreaArg x a p → ¬ AreaArg y a q)

/-- the argument is the last one for the area `a`, and names the folder `p` -/
def LastFor (args : List Str) (a p : Str) : Prop :=
  ∃ l1 arg l2, args = l1 ++ arg :: l2 ∧ AreaArg arg a p ∧ ∀ x ∈ l2, ∀ q, ¬ AreaArg x a q

theorem lastFor_cons {arg : Str} {args : List Str} {a p : Str} :
    LastFor (arg :: args) a p ↔ LastFor args a p ∨ (AreaArg arg a p ∧ ∀ x ∈ args, ∀ q, ¬ AreaArg x a q) := by
  constructor
  · rintro ⟨l1, x, l2, he, hA, hl⟩
    cases l1 with
    | nil =>
      obtain ⟨rfl, rfl⟩ := List.cons.inj he
      exact Or.inr ⟨hA, hl⟩
    | cons y l1 =>
      obtain ⟨rfl, rfl⟩ := List.cons.inj he
      exact Or.inl ⟨l1, x, l2, rfl, hA, hl⟩
  · rintro (⟨l1, x, l2, rfl, hA, hl⟩ | ⟨hA, hl⟩)
    · exact ⟨arg :: l1, x, l2, rfl, hA, hl⟩
    · exact ⟨[], arg, args, rfl, hA, hl⟩

/-- what the loop over the arguments collects: for each area the folder of the last argument for it -/
theorem areaFolders_mem {get : Str → Res Folder} {args : List Str} {m r : AMap Str Folder} (hn : (mkeys m).Nodup)
    (h : areaFolders get m args = .ok r) (a : Str) (f : Folder) :
    (a, f) ∈ r ↔ (∃ p, LastFor args a p ∧ get p = .ok f) ∨ ((a, f) ∈ m ∧ ∀ arg ∈ args, ∀ p, ¬ AreaArg arg a p) := by
  induction args generalizing m with
  | nil =>
    cases h
    constructor
    · intro h; exact Or.inr ⟨h, fun _ h => by cases h⟩
    · rintro (⟨p, ⟨l1, x, l2, he, _⟩, _⟩ | ⟨h, _⟩)
      · cases l1 <;> cases he
      · exact h
  | cons arg args ih =>
    rw [areaFolders] at h
    cases ha : areaArg arg with
    | none =>
      simp only [ha] at h
      have hno : ∀ b p, ¬ AreaArg arg b p := fun b p hA => by rw [areaArg_iff.2 hA] at ha; cases ha
      rw [ih hn h]
      refine or_congr ⟨?_, ?_⟩ (and_congr Iff.rfl ⟨?_, ?_⟩)
      · rintro ⟨p, h1, h2⟩; exact ⟨p, lastFor_cons.2 (Or.inl h1), h2⟩
      · rintro ⟨p, h1, h2⟩
        rcases lastFor_cons.1 h1 with h1 | ⟨h1, _⟩
        · exact ⟨p, h1, h2⟩
        · exact absurd h1 (hno _ _)
      · rintro h1 x hx p
        rcases List.mem_cons.1 hx with rfl | hx
        · exact hno _ _
        · exact h1 x hx p
      · exact fun h1 x hx p => h1 x (List.mem_cons_of_mem _ hx) p
    | some ap =>
      obtain ⟨b, p⟩ := ap
      simp only [ha] at h
      have hA := areaArg_iff.1 ha
      cases hg : get p with
      | error e => simp only [hg] at h; cases h
      | ok g =>
        simp only [hg] at h
        rw [ih (mkeys_mset_nodup hn b g) h, mem_mset_iff hn]
        simp only [Prod.mk.injEq]
        constructor
        · rintro (⟨q, h1, h2⟩ | ⟨⟨rfl, rfl⟩ | ⟨h1, h2⟩, h3⟩)
          · exact Or.inl ⟨q, lastFor_cons.2 (Or.inl h1), h2⟩
          · exact Or.inl ⟨p, lastFor_cons.2 (Or.inr ⟨hA, h3⟩), hg⟩
          · refine Or.inr ⟨h2, fun x hx q hq => ?_⟩
            rcases List.mem_cons.1 hx with rfl | hx
            · exact h1 (hA.unique hq).1.symm
            · exact h3 x hx q hq
        · rintro (⟨q, h1, h2⟩ | ⟨h1, h2⟩)
          · rcases lastFor_cons.1 h1 with h1 | ⟨h1, h3⟩
            · exact Or.inl ⟨q, h1, h2⟩
            · obtain ⟨rfl, rfl⟩ := hA.unique h1
              rw [hg] at h2; cases h2
              exact Or.inr ⟨Or.inl ⟨rfl, rfl⟩, h3⟩
          · refine Or.inr ⟨Or.inr ⟨?_, h1⟩, fun x hx => h2 x (List.mem_cons_of_mem _ hx)⟩
            rintro rfl
            exact h2 arg (List.mem_cons_self ..) p hA

/-- The user named this file: it is in the source folder, or in the folder of an argument `area:folder`; its logical path
is `q` and its content `b`. -/
def Named (w : World) (u : Surroundings) (c : CmdLine) (q : Str) (b : Bytes) : Prop :=
  (∃ F, u.get c.src = .ok F ∧ ∃ f ∈ F, w.statePath f.1 c.area = .ok q ∧ f.2 = b) ∨
  ∃ arg ∈ c.args, ∃ a p, arg = a ++ ':' :: p ∧ ':' ∉ a ∧ ∃ F, u.get p = .ok F ∧ ∃ f ∈ F, w.statePath f.1 a = .ok q ∧ f.2 = b

/-- the folders that are understood: the source folder, and for each area the folder of the last argument of the form
`area:folder` for it -/
def Understood (w : World) (u : Surroundings) (c : CmdLine) (q : Str) (b : Bytes) : Prop :=
  (∃ F, u.get c.src = .ok F ∧ ∃ f ∈ F, w.statePath f.1 c.area = .ok q ∧ f.2 = b) ∨
  ∃ a p, LastFor c.args a p ∧ ∃ F, u.get p = .ok F ∧ ∃ f ∈ F, w.statePath f.1 a = .ok q ∧ f.2 = b

/-- Go visits each entry of a map once, in any order -/
def AnyOrder (u : Surroundings) : Prop := ∀ m, (u.order m).Perm m

/-- the arguments are understood, each names its own area -/
structure GoodAreas (args : List Str) : Prop where
  form : ∀ arg ∈ args, ∃ a p, AreaArg arg a p
  distinct : DistinctAreas args

theorem mem_inArea {a : Str} {F : Folder} {x : InFile} : x ∈ inArea a F ↔ x.area = a ∧ (x.path, x.data) ∈ F := by
  unfold inArea
  rw [List.mem_map]
  constructor
  · rintro ⟨y, hy, rfl⟩; exact ⟨rfl, hy⟩
  · rintro ⟨rfl, h⟩; exact ⟨_, h, rfl⟩

/-- the files of the session are those of the folders that are understood -/
theorem openFolders_understood {w : World} {u : Surroundings} {c : CmdLine} {files : List InFile} (ho : AnyOrder u)
    (h : openFolders u c = .ok files) (q : Str) (b : Bytes) : Source w files q b ↔ Understood w u c q b := by
  unfold openFolders at h
  obtain ⟨src, h1, h⟩ := res_bind_eq_ok.1 h
  obtain ⟨areas, h2, h⟩ := res_bind_eq_ok.1 h
  cases h
  have hm := areaFolders_mem (m := []) List.nodup_nil h2
  unfold Source Understood StatePathOf
  constructor
  · rintro ⟨x, hx, h3, h4⟩
    rcases List.mem_append.1 hx with hx | hx
    · obtain ⟨h5, h6⟩ := mem_inArea.1 hx
      exact Or.inl ⟨src, h1, _, h6, by rw [← h5]; exact h3, h4⟩
    · obtain ⟨⟨a, F⟩, hF, hx⟩ := List.mem_flatMap.1 hx
      obtain ⟨rfl, h6⟩ := mem_inArea.1 hx
      rcases (hm _ F).1 ((ho areas).mem_iff.1 hF) with ⟨p, hA, hp⟩ | ⟨h7, _⟩
      · exact Or.inr ⟨_, p, hA, F, hp, _, h6, h3, h4⟩
      · cases h7
  · rintro (⟨F, hF, f, hf, h3, h4⟩ | ⟨a, p, hA, F, hF, f, hf, h3, h4⟩)
    · rw [h1] at hF; cases hF
      exact ⟨⟨c.area, f.1, f.2⟩, List.mem_append.2 (Or.inl (mem_inArea.2 ⟨rfl, hf⟩)), h3, h4⟩
    · refine ⟨⟨a, f.1, f.2⟩, List.mem_append.2 (Or.inr ?_), h3, h4⟩
      exact List.mem_flatMap.2 ⟨(a, F), (ho areas).mem_iff.2 ((hm a F).2 (Or.inl ⟨p, hA, hF⟩)), mem_inArea.2 ⟨rfl, hf⟩⟩

/-- arguments of the right form for different areas are all understood -/
theorem understood_iff_named {w : World} {u : Surroundings} {c : CmdLine} (hg : GoodAreas c.args) (q : Str) (b : Bytes) :
    Understood w u c q b ↔ Named w u c q b := by
  refine or_congr Iff.rfl ⟨?_, ?_⟩
  · rintro ⟨a, p, ⟨l1, arg, l2, he, hA, _⟩, hF⟩
    exact ⟨arg, by rw [he]; simp, a, p, hA.eq, hA.noColon, hF⟩
  · rintro ⟨arg, harg, a, p, hA, hc, hF⟩
    obtain ⟨a', p', hA'⟩ := hg.form arg harg
    have he := hA'.eq
    rw [hA] at he
    have e1 := takeWhile_colon (p := p) hc
    have e2 := takeWhile_colon (p := p') hA'.noColon
    rw [he] at e1
    have h5 : a' = a := e2.1.symm.trans e1.1
    have h6 : p' = p := by have := e2.2.symm.trans e1.2; simpa using this
    subst h5 h6
    refine ⟨a', p', ?_, hF⟩
    obtain ⟨l1, l2, he⟩ := List.append_of_mem harg
    refine ⟨l1, arg, l2, he, hA', fun x hx q hq => ?_⟩
    have hd := hg.distinct
    unfold DistinctAreas at hd
    rw [he] at hd
    exact (List.pairwise_cons.1 (List.pairwise_append.1 hd).2.1).1 x hx a' p' q hA' hq

/-- **C114, in full** (false): if `add` ends with success for a new id, every file of the folders named on the command line
comes out again under the area it was named for. -/
def C114_full : Prop := ∀ (w : World) (env : Env) (plain : Bool) (blank : Inv) (ls : List (Str → Res Str)) (a : CreateArgs) (fs : FS)
  (u : Surroundings) (c : CmdLine) (files : List InFile) (h : Bytes → Str) (xp : ExtractPath) (wm : Bool),
  Codec w → HexHash w → LowerHash w → (∀ t, w.time (w.time t) = w.time t) → GoodArgs a c.id → w.hash a.alg = some h →
  AnyOrder u → objectExists ls fs c.id = .ok false → openFolders u c = .ok files → AddsOnly (c.session files) c.dup files →
  (addRun w env plain blank ls a fs u c).2.success = true → NewFiles w h a c.id (c.session files) files →
  NamesApart xp (fun q => ∃ b, Named w u c q b) →
  ComesOut w env plain blank ls (applyOps fs (addRun w env plain blank ls a fs u c).1) c.id xp wm (Named w u c)

theorem ComesOut.congr {w : World} {env : Env} {plain : Bool} {blank : Inv} {ls : List (Str → Res Str)} {fs : FS} {id : Str}
    {xp : ExtractPath} {wm : Bool} {E E' : Str → Bytes → Prop} (h : ComesOut w env plain blank ls fs id xp wm E)
    (he : ∀ q b, E q b ↔ E' q b) : ComesOut w env plain blank ls fs id xp wm E' := by
  obtain ⟨i, f, h1, h2, h3, h4⟩ := h
  refine ⟨i, f, h1, h2, h3, fun x b hx => (h4 x b hx).trans ?_⟩
  constructor
  · rintro ⟨q, g1, g2⟩; exact ⟨q, g1, (he q b).1 g2⟩
  · rintro ⟨q, g1, g2⟩; exact ⟨q, g1, (he q b).2 g2⟩

section
variable {w : World} {env : Env} {plain : Bool} {blank : Inv} {ls : List (Str → Res Str)} {a : CreateArgs} {fs : FS}
  {u : Surroundings} {c : CmdLine} {files : List InFile} {h : Bytes → Str}

/-! ## Exit status -/

/-- **C115**, `add`: with exit status 0 either there was an object with this id and nothing was changed, or there was none and
adding it came to its end without error. -/
theorem C115_add (hs : (addRun w env plain blank ls a fs u c).2.success = true) :
    ∃ files, openFolders u c = .ok files ∧
      ((objectExists ls fs c.id = .ok true ∧ (addRun w env plain blank ls a fs u c).1 = []) ∨
       (objectExists ls fs c.id = .ok false ∧ (addCmd w env plain blank ls a fs c.id (c.session files)).2 = none ∧
        (addRun w env plain blank ls a fs u c).1 = (addCmd w env plain blank ls a fs c.id (c.session files)).1)) := by
  unfold addRun at hs ⊢
  cases ho : openFolders u c with
  | error e => simp only [ho] at hs; cases hs
  | ok files =>
    refine ⟨files, rfl, ?_⟩
    simp only [ho] at hs ⊢
    unfold addCmd
    cases hx : objectExists ls fs c.id with
    | error e => simp only [hx] at hs; cases hs
    | ok t =>
      cases t with
      | true => exact Or.inl ⟨rfl, rfl⟩
      | false =>
        rw [hx] at hs
        cases hr : (addObjectByPath w env plain blank ls a fs c.id (c.session files)).2 with
        | some e => simp only [hr] at hs; cases hs
        | none => exact Or.inr ⟨rfl, rfl, rfl⟩

/-- **C115**, `add`, exact: the exit status is 0 exactly if the folders could be read, the storage root could be closed, and the
object was there already or was added without error. -/
theorem C115_add_exact : (addRun w env plain blank ls a fs u c).2.success = true ↔
    ∃ files, openFolders u c = .ok files ∧ u.closes = true ∧ (objectExists ls fs c.id = .ok true ∨
      objectExists ls fs c.id = .ok false ∧ (addCmd w env plain blank ls a fs c.id (c.session files)).2 = none) := by
  unfold addRun
  cases ho : openFolders u c with
  | error e => simp
  | ok files =>
    cases hx : objectExists ls fs c.id with
    | error e => simp
    | ok t =>
      cases t with
      | true => simp
      | false =>
        have hadd : addCmd w env plain blank ls a fs c.id (c.session files) = addObjectByPath w env plain blank ls a fs c.id (c.session files) := by
          unfold addCmd; rw [hx]
        simp only [Except.ok.injEq, exists_eq_left', hadd, Bool.false_eq_true, false_or, true_and]
        cases hr : (addObjectByPath w env plain blank ls a fs c.id (c.session files)).2 <;> simp

/-- **C115**, `update`: the exit status is 0 exactly if the folders could be read, the object was there, the update came to its
end without error and the storage root could be closed. -/
theorem C115_update : (updateRun w env plain blank ls a fs u c).2.success = true ↔
    ∃ files, openFolders u c = .ok files ∧ objectExists ls fs c.id = .ok true ∧
      (updateCmd w env plain blank ls a fs c.id (c.session files)).2 = none ∧ u.closes = true := by
  unfold updateRun
  cases ho : openFolders u c with
  | error e => simp
  | ok files =>
    unfold updateCmd
    cases hx : objectExists ls fs c.id with
    | error e => simp
    | ok t =>
      cases t with
      | false => simp
      | true =>
        cases hr : (addObjectByPath w env plain blank ls a fs c.id (c.session files)).2 with
        | some e => cases e <;> simp [hr]
        | none => simp [hr]

/-- what an update with exit status 0 changed -/
theorem updateRun_ops (hs : (updateRun w env plain blank ls a fs u c).2.success = true) (ho : openFolders u c = .ok files) :
    (updateRun w env plain blank ls a fs u c).1 = (updateCmd w env plain blank ls a fs c.id (c.session files)).1 := by
  obtain ⟨f, h1, h2, h3, _⟩ := C115_update.1 hs
  rw [ho] at h1; cases h1
  unfold updateRun updateCmd at *
  simp only [ho, h2] at *
  rw [h3]

/-! ## The folders named -/

/-- **C114**, `add`: exactly the files of the folders that are understood come out again, each under its area.  Missing:
arguments of another form, and several folders for one area, of which the last is taken. -/
theorem C114_add_partial (hc : Codec w) (hx : HexHash w) (hL : LowerHash w) (ht : ∀ t, w.time (w.time t) = w.time t)
    (hga : GoodArgs a c.id) (hh : w.hash a.alg = some h) (hu : AnyOrder u) (hex : objectExists ls fs c.id = .ok false)
    (ho : openFolders u c = .ok files) (ha : AddsOnly (c.session files) c.dup files)
    (hs : (addRun w env plain blank ls a fs u c).2.success = true) (hf : NewFiles w h a c.id (c.session files) files)
    {xp : ExtractPath} (hxp : NamesApart xp (fun q => ∃ b, Understood w u c q b)) (wm : Bool) :
    ComesOut w env plain blank ls (applyOps fs (addRun w env plain blank ls a fs u c).1) c.id xp wm (Understood w u c) := by
  obtain ⟨f, h1, h2⟩ := C115_add hs
  rw [ho] at h1; cases h1
  have hN := openFolders_understood (w := w) hu ho
  rcases h2 with ⟨h2, _⟩ | ⟨_, h3, h4⟩
  · rw [hex] at h2; cases h2
  · rw [h4]
    have hp : ∀ q, (∃ f ∈ files, StatePathOf w f q) → ∃ b, Understood w u c q b := by
      rintro q ⟨f, hf, hq⟩
      exact ⟨f.data, (hN q f.data).1 ⟨f, hf, hq, rfl⟩⟩
    exact (C113_add_partial hc hx hL ht hga hh hex ha h3 hf
      ⟨fun q hq => hxp.total q (hp q hq), fun q q' x hq hq' => hxp.injective q q' x (hp q hq) (hp q' hq')⟩ wm).1.congr hN

/-- **C114**, `add`, for arguments of the form that is understood and different areas: exactly the files of the folders
named come out again. -/
theorem C114_add_named_partial (hc : Codec w) (hx : HexHash w) (hL : LowerHash w) (ht : ∀ t, w.time (w.time t) = w.time t)
    (hga : GoodArgs a c.id) (hh : w.hash a.alg = some h) (hu : AnyOrder u) (hex : objectExists ls fs c.id = .ok false)
    (ho : openFolders u c = .ok files) (ha : AddsOnly (c.session files) c.dup files)
    (hs : (addRun w env plain blank ls a fs u c).2.success = true) (hf : NewFiles w h a c.id (c.session files) files)
    {xp : ExtractPath} (hxp : NamesApart xp (fun q => ∃ b, Named w u c q b)) (wm : Bool) (hg : GoodAreas c.args) :
    ComesOut w env plain blank ls (applyOps fs (addRun w env plain blank ls a fs u c).1) c.id xp wm (Named w u c) := by
  refine (C114_add_partial hc hx hL ht hga hh hu hex ho ha hs hf ⟨fun q ⟨b, hb⟩ => ?_, fun q q' x ⟨b, hb⟩ ⟨b', hb'⟩ => ?_⟩ wm).congr
    (understood_iff_named hg)
  · exact hxp.total q ⟨b, (understood_iff_named hg q b).1 hb⟩
  · exact hxp.injective q q' x ⟨b, (understood_iff_named hg q b).1 hb⟩ ⟨b', (understood_iff_named hg q' b').1 hb'⟩

/-- **C114**, `update`: the files of the folders that are understood come out again beside those that were there. -/
theorem C114_update_partial {inv : Inv} {f0 : List Fnd} {p N : Nat} (hc : Codec w) (hx : HexHash w) (hL : LowerHash w)
    (ht : ∀ t, w.time (w.time t) = w.time t) (hl : loadByID w env plain blank ls fs c.id = .ok (inv, f0)) (hid : inv.id = c.id)
    (I : Intact w (subFS fs (rootPath ls c.id).1) p N inv) (hT : Tidy inv) (hh : w.hash inv.digestAlg = some h)
    (hu : AnyOrder u) (ho : openFolders u c = .ok files) (ha : AddsOnly (c.session files) c.dup files)
    (hs : (updateRun w env plain blank ls a fs u c).2.success = true)
    (hg : GoodFiles w h (subFS fs (rootPath ls c.id).1) inv N (c.session files) files)
    (hwid : 0 < p → (fmtNat (N + 1)).length ≤ p) {xp : ExtractPath}
    (hxp : NamesApart xp (fun q => HasPath inv inv.head q ∨ ∃ b, Understood w u c q b)) (wm : Bool) :
    ComesOut w env plain blank ls (applyOps fs (updateRun w env plain blank ls a fs u c).1) c.id xp wm
      (fun q b => HeadContent (subFS fs (rootPath ls c.id).1) inv q b ∨ Understood w u c q b) := by
  obtain ⟨f, h1, h2, h3, _⟩ := C115_update.1 hs
  rw [ho] at h1; cases h1
  rw [updateRun_ops hs ho]
  have hN := openFolders_understood (w := w) hu ho
  have hp : ∀ q, PathAfter w inv files q → HasPath inv inv.head q ∨ ∃ b, Understood w u c q b := by
    rintro q (hq | ⟨f, hf, hq⟩)
    · exact Or.inl hq
    · exact Or.inr ⟨f.data, (hN q f.data).1 ⟨f, hf, hq, rfl⟩⟩
  refine (C113_update_partial hc hx hL ht hl hid I hT hh ha h3 hg hwid
    ⟨fun q hq => hxp.total q (hp q hq), fun q q' x hq hq' => hxp.injective q q' x (hp q hq) (hp q' hq')⟩ wm).1.congr ?_
  intro q b
  unfold Expected
  exact or_congr Iff.rfl (hN q b)

end

/-! ## A command line -/

/-- three folders: `s` with one file, `x` and `y` with one file each -/
def clGet (p : Str) : Res Folder :=
  if p = "s".toList then .ok [("c/d".toList, [1, 2])]
  else if p = "x".toList then .ok [("e".toList, [7])]
  else if p = "y".toList then .ok [("f".toList, [1, 2])]
  else .error (.error "no such folder")

def clSurr : Surroundings := ⟨clGet, fun m => m.reverse, true, []⟩

theorem clSurr_order : AnyOrder clSurr := fun m => List.reverse_perm m

def clLine (args : List Str) : CmdLine := ⟨"a".toList, "content".toList, "s".toList, args, true, rtSession []⟩

theorem clLine_adds (args : List Str) (files : List InFile) : AddsOnly ((clLine args).session files) true files :=
  ⟨rfl, rfl, rfl, rfl, rfl⟩

def clArgs : List Str := ["meta:x".toList, "ab:y".toList]

def clFiles : List InFile :=
  [⟨"content".toList, "c/d".toList, [1, 2]⟩, ⟨"ab".toList, "f".toList, [1, 2]⟩, ⟨"meta".toList, "e".toList, [7]⟩]

theorem newFiles_of_check {files : List InFile} {c : CmdLine} (hid : c.id = "a".toList) (hr : c.session files = rtSession files)
    (hne : files ≠ []) (hw : ∀ f ∈ files, walk 0 (splitOn '/' f.path) = some 1 ∨ walk 0 (splitOn '/' f.path) = some 2)
    (ht : (targets exKeep { newInv "a".toList exArgs.spec exArgs.alg exArgs.contentDir exArgs.fixity with head := "v1".toList }
      (rtSession files).body).Nodup) (hp : (files.map InFile.path).Nodup)
    (hsafe : ∀ f ∈ files, ∀ seg ∈ splitOn '/' f.path, seg ≠ [] ∧ seg ≠ ".".toList ∧ seg ≠ "..".toList)
    (hnc : ∀ f ∈ files, ∀ g ∈ files, ¬ (f.path ++ ['/']) <+: g.path)
    (hcol : ∀ f ∈ files, ∀ g ∈ files, rtHash f.data = rtHash g.data → f.data = g.data) :
    NewFiles exKeep rtHash exArgs c.id (c.session files) files := by
  rw [hid, hr]
  refine ⟨hne, rt_names (fun f hf => ?_), ht, rt_paths hp, ?_, ?_, hcol⟩
  · rcases hw f hf with h | h
    · exact ⟨0, h⟩
    · exact ⟨1, h⟩
  · intro f hf q hq
    rw [rtState.1 hq]
    exact hsafe f hf
  · rintro f hf g hg x y hx hy ⟨t, ht⟩
    rw [rtState.1 hx, rtState.1 hy] at ht
    exact hnc f hf g hg ⟨t, by rw [ht]; simp⟩

theorem clFiles_new : NewFiles exKeep rtHash exArgs (clLine clArgs).id ((clLine clArgs).session clFiles) clFiles :=
  newFiles_of_check rfl rfl (by decide) (by decide) (by decide) (by decide) (by decide) (by decide) (by decide)

theorem clArgs_good : GoodAreas clArgs := by
  have h1 : areaArg "meta:x".toList = some ("meta".toList, "x".toList) := by decide
  have h2 : areaArg "ab:y".toList = some ("ab".toList, "y".toList) := by decide
  constructor
  · intro arg harg
    rcases List.mem_cons.1 harg with rfl | harg
    · exact ⟨_, _, areaArg_iff.1 h1⟩
    · cases List.mem_singleton.1 harg
      exact ⟨_, _, areaArg_iff.1 h2⟩
  · refine List.pairwise_cons.2 ⟨?_, List.pairwise_singleton _ _⟩
    intro y hy a p q ha hb
    cases List.mem_singleton.1 hy
    obtain ⟨rfl, _⟩ := (areaArg_iff.1 h1).unique ha
    have := (areaArg_iff.1 h2).unique hb
    exact absurd this.1 (by decide)

/-- the hypotheses of `C114_add_named_partial` (and of `C114_add_partial`) are met -/
theorem cl_add : ComesOut exKeep exEnv true (blankInv [] []) flatLayout
    (applyOps [] (addRun exKeep exEnv true (blankInv [] []) flatLayout exArgs [] clSurr (clLine clArgs)).1) "a".toList rtXp true
    (Named exKeep clSurr (clLine clArgs)) :=
  C114_add_named_partial (w := exKeep) (c := clLine clArgs) (codecWorld_codec _) (codecWorld_hex _) exKeep_lower (fun _ => rfl) exArgs_good
    rtHash_eq clSurr_order (by decide) (files := clFiles) (by rfl) (clLine_adds _ _) (by decide) clFiles_new (rtXp_apart _) true
    clArgs_good

theorem comesOut_same {w : World} {env : Env} {plain : Bool} {blank : Inv} {ls : List (Str → Res Str)} {fs : FS} {id : Str}
    {E E' : Str → Bytes → Prop} (h : ComesOut w env plain blank ls fs id rtXp false E)
    (h' : ComesOut w env plain blank ls fs id rtXp false E') {q : Str} {b : Bytes} (hE : E q b) : E' q b := by
  obtain ⟨i, f, h1, _, _, h4⟩ := h
  obtain ⟨i', f', h1', _, _, h4'⟩ := h'
  rw [h1] at h1'; cases h1'
  have := (h4 q b (by simp)).2 ⟨q, rfl, hE⟩
  obtain ⟨q', hq, hE'⟩ := (h4' q b (by simp)).1 this
  cases hq
  exact hE'

/-- one run is enough to refute C114: the files of the session come out, a file that was named is not among them -/
theorem C114_refuted {args : List Str} {files : List InFile} (ho : openFolders clSurr (clLine args) = .ok files)
    (hs : (addRun exKeep exEnv true (blankInv [] []) flatLayout exArgs [] clSurr (clLine args)).2.success = true)
    (hn : NewFiles exKeep rtHash exArgs "a".toList ((clLine args).session files) files) {q : Str} {b : Bytes}
    (hq : Named exKeep clSurr (clLine args) q b) (hnot : ∀ f ∈ files, f.path ≠ q) : ¬ C114_full := by
  intro hf
  have h1 := hf exKeep exEnv true (blankInv [] []) flatLayout exArgs [] clSurr (clLine args) files rtHash rtXp false
    (codecWorld_codec _) (codecWorld_hex _) exKeep_lower (fun _ => rfl) exArgs_good rtHash_eq clSurr_order
    (by show objectExists flatLayout [] "a".toList = _; decide) ho (clLine_adds _ _) hs hn (rtXp_apart _)
  obtain ⟨f, g1, g2⟩ := C115_add hs
  rw [ho] at g1; cases g1
  have hex : objectExists flatLayout [] (clLine args).id = .ok false := by
    show objectExists flatLayout [] "a".toList = _; decide
  rcases g2 with ⟨g2, _⟩ | ⟨_, g3, g4⟩
  · rw [hex] at g2; cases g2
  · rw [g4] at h1
    have h2 := (C113_add_partial (w := exKeep) (codecWorld_codec _) (codecWorld_hex _) exKeep_lower (fun _ => rfl) exArgs_good
      rtHash_eq hex (clLine_adds args files) g3 hn (rtXp_apart _) false).1
    obtain ⟨f, hf, hp, _⟩ := comesOut_same h1 h2 hq
    exact hnot f hf (rtState.1 hp).symm

/-- **C114 is violated** by two folders for one area: only the last one is added. -/
theorem C114_full_fails_twice : ¬ C114_full :=
  C114_refuted (args := ["ab:x".toList, "ab:y".toList])
    (files := [⟨"content".toList, "c/d".toList, [1, 2]⟩, ⟨"ab".toList, "f".toList, [1, 2]⟩]) (by rfl) (by decide)
    (newFiles_of_check (c := clLine ["ab:x".toList, "ab:y".toList]) rfl rfl (by decide) (by decide) (by decide) (by decide) (by decide)
      (by decide) (by decide))
    (q := "e".toList) (b := [7])
    (Or.inr ⟨_, List.mem_cons_self .., "ab".toList, "x".toList, rfl, by decide, _, rfl, _, List.mem_singleton.2 rfl, rfl, rfl⟩)
    (by decide)

/-- **C114 is violated** by an area name with other characters than small letters: its folder is left out, with success. -/
theorem C114_full_fails_form : ¬ C114_full :=
  C114_refuted (args := ["Metadata:x".toList]) (files := [⟨"content".toList, "c/d".toList, [1, 2]⟩]) (by rfl) (by decide)
    (newFiles_of_check (c := clLine ["Metadata:x".toList]) rfl rfl (by decide) (by decide) (by decide) (by decide) (by decide)
      (by decide) (by decide))
    (q := "e".toList) (b := [7])
    (Or.inr ⟨_, List.mem_cons_self .., "Metadata".toList, "x".toList, rfl, by decide, _, rfl, _, List.mem_singleton.2 rfl, rfl, rfl⟩)
    (by decide)

/-! ## Verdicts -/

/-- the command closes with `no errors found` -/
def Finish.SaysClean (f : Finish) : Prop := ∃ F, f.shown = some F ∧ NoErrors F

/-- **C115**, `validate`: `no errors found` is printed exactly if the check came to an end and found no error. -/
theorem validate_says {check : Res (List Fnd)} : (validateRun check).SaysClean ↔ ∃ F, check = .ok F ∧ NoErrors F := by
  unfold Finish.SaysClean validateRun
  cases check with
  | error e => cases e <;> simp
  | ok F => simp

/-- **C115**, `validate` of a storage root: if it closes with `no errors found`, every object in it is accepted, and so has
exactly its content. -/
theorem C115_validate_root {t : FDir} {w : World} {env : Env} {plain : Bool} {blank : Inv} {fs : FS}
    (h : (validateRun (validateRoot w env plain blank fs t)).SaysClean) (T : TreeOf t fs) (G : GoodNames t)
    (hnd : (mkeys fs).Nodup) (hnest : NoNesting t) {p : List Str} (hp : IsObjectFolder t p) :
    Accepted w env plain blank fs (folderPath p) := by
  obtain ⟨F, hF, hn⟩ := validate_says.1 h
  exact C81_every_object hF hn T G hnd hnest hp

/-- **C115**, `validate` of one object: after a change of a content file the command does not say `no errors found`. -/
theorem C115_validate_tampered {w : World} {env : Env} {plain : Bool} {blank : Inv} {fs fs' : FS} {folder : Str}
    (h : (validateRun (checkFolder w env plain blank fs folder)).SaysClean)
    (hsame : mget fs' (folder ++ "/inventory.json".toList) = mget fs (folder ++ "/inventory.json".toList))
    {inv : Inv} {f : List Fnd} (hl : loadByFolder w env plain blank fs folder = .ok (inv, f)) {hash : Bytes → Str}
    (hh : w.hash inv.digestAlg = some hash) {p : Str} (hp : ContentPath inv p)
    (hne : (mget (subFS fs' folder) p).map hash ≠ (mget (subFS fs folder) p).map hash) :
    ¬ (validateRun (checkFolder w env plain blank fs' folder)).SaysClean := by
  intro h'
  obtain ⟨F, hF, hn⟩ := validate_says.1 h
  obtain ⟨F', hF', hn'⟩ := validate_says.1 h'
  exact C78_tampering_detected hF hn hsame hl hh hp hne hF' hn'

/-- **C115, in full** (false): exit status 0 means that the command did what it was asked for, `no errors found` that nothing
went wrong. -/
structure C115_full : Prop where
  add : ∀ (w : World) (env : Env) (plain : Bool) (blank : Inv) (ls : List (Str → Res Str)) (a : CreateArgs) (fs : FS)
    (u : Surroundings) (c : CmdLine), (addRun w env plain blank ls a fs u c).2.success = true →
    ∃ files, openFolders u c = .ok files ∧ objectExists ls fs c.id = .ok false ∧
      (addCmd w env plain blank ls a fs c.id (c.session files)).2 = none
  updateLine : ∀ (w : World) (env : Env) (plain : Bool) (blank : Inv) (ls : List (Str → Res Str)) (a : CreateArgs) (fs : FS)
    (u : Surroundings) (c : CmdLine), (updateRun w env plain blank ls a fs u c).2.SaysClean →
    (updateRun w env plain blank ls a fs u c).2.success = true
  validate : ∀ (w : World) (env : Env) (plain : Bool) (blank : Inv) (fs : FS) (t : FDir),
    (validateRun (validateRoot w env plain blank fs t)).success = true →
    ∃ F, validateRoot w env plain blank fs t = .ok F ∧ NoErrors F
  extract : ∀ (w : World) (inv : Inv) (src : FS) (xp : ExtractPath) (v : Str) (wm empty : Bool) (found : List Fnd),
    (extractRun empty (extract w inv src xp v wm).err found).1.success = true →
    empty = true ∧ (extract w inv src xp v wm).err = none

/-- `extract` prints `extraction done without errors` exactly if it was done, into an empty folder, without error. -/
theorem C115_extract {w : World} {inv : Inv} {src : FS} {xp : ExtractPath} {v : Str} {wm empty : Bool} {found : List Fnd} :
    (extractRun empty (extract w inv src xp v wm).err found).2 = true ↔
      empty = true ∧ (extract w inv src xp v wm).err = none := by
  unfold extractRun
  cases empty <;> cases (extract w inv src xp v wm).err with
  | none => simp
  | some e => cases e <;> simp


/-- a folder with a declaration and an inventory that cannot be read -/
def clBroken : FS :=
  [("a/0=ocfl_object_1.0".toList, asBytes "ocfl_object_1.0\n".toList), ("a/inventory.json".toList, [1])]

/-- **C115 is violated** by `update`: the object cannot be opened, the update fails, and `no errors found` is printed. -/
theorem C115_full_fails_update : ¬ C115_full := by
  intro h
  have h1 := h.updateLine ockWorld exEnv false ockInv flatLayout exArgs clBroken clSurr (clLine clArgs) ⟨[], by rfl, by simp [NoErrors]⟩
  revert h1
  decide

/-- **C115 is violated** by `add`: with an id that is there, nothing is added, with success. -/
theorem C115_full_fails_add : ¬ C115_full := by
  intro h
  obtain ⟨_, _, h2, _⟩ := h.add exKeep exEnv true (blankInv [] []) flatLayout exArgs clBroken clSurr (clLine clArgs) (by decide)
  have : objectExists flatLayout clBroken (clLine clArgs).id = .ok true := by decide
  rw [this] at h2; cases h2

/-- **C115 is violated** by `validate`: the root of `C82_full_fails` is not accepted (nothing is shown), with success. -/
theorem C115_full_fails_validate : ¬ C115_full := by
  intro h
  obtain ⟨F, hF, _⟩ := h.validate ockWorld exEnv false ockInv badRootFS badRootTree (by decide)
  have : (validateRoot ockWorld exEnv false ockInv badRootFS badRootTree).isOk = false := by decide
  rw [hF] at this; cases this

/-- **C115 is violated** by `extract`: there is no such version, nothing is extracted, with success. -/
theorem C115_full_fails_extract : ¬ C115_full := by
  intro h
  obtain ⟨_, h2⟩ := h.extract exKeep lifeInv1 [] rtXp "v7".toList false true [] (by decide)
  revert h2
  decide

/-- an object that is accepted, and the root it is in -/
example : Accepted ockWorld exEnv false ockInv okRootFS (folderPath ["o".toList]) :=
  C115_validate_root (t := okRootTree) ⟨[], by rw [okRoot_accepted]; rfl, by simp [NoErrors]⟩ okRoot_tree okRoot_good (by decide)
    okRoot_noNesting okRoot_object

/-- `g` in the source folder, `h` in the folder of an area -/
def clMore : Surroundings :=
  { clSurr with get := fun p => if p = "s".toList then .ok [("g".toList, [7])] else .ok [("h".toList, [3, 3, 3])] }

theorem clMore_success :
    (updateRun exKeep exEnv true (blankInv [] []) flatLayout exArgs rtRoot clMore (clLine ["ab:/y".toList])).2.success = true := by
  obtain ⟨f, hl⟩ := rtRoot_load
  have hex : objectExists flatLayout rtRoot "a".toList = .ok true := by
    unfold objectExists
    rw [rtRoot_sub]
    rfl
  have hsess : (session exKeep lifeInv1 ((clLine ["ab:/y".toList]).session rtMore)).err = none := by decide
  refine C115_update.2 ⟨rtMore, by rfl, hex, ?_, rfl⟩
  unfold updateCmd addObjectByPath
  rw [show (clLine ["ab:/y".toList]).id = "a".toList from rfl]
  simp only [hex, hl]
  exact hsess

/-- the hypotheses of `C114_update_partial` are met: `rt_update` by command line -/
example : ComesOut exKeep exEnv true (blankInv [] []) flatLayout
    (applyOps rtRoot (updateRun exKeep exEnv true (blankInv [] []) flatLayout exArgs rtRoot clMore (clLine ["ab:/y".toList])).1)
    "a".toList rtXp true (fun q b => HeadContent (subFS rtRoot (rootPath flatLayout "a".toList).1) lifeInv1 q b ∨
      Understood exKeep clMore (clLine ["ab:/y".toList]) q b) := by
  obtain ⟨f, hl⟩ := rtRoot_load
  exact C114_update_partial (w := exKeep) (u := clMore) (c := clLine ["ab:/y".toList]) (codecWorld_codec _) (codecWorld_hex _) exKeep_lower
    (fun _ => rfl) hl rfl (by show Intact exKeep (subFS rtRoot (rootPath flatLayout "a".toList).1) 0 1 lifeInv1
                              rw [rtRoot_sub]; exact rt_intact) rt_tidy rtHash_eq clSurr_order (files := rtMore) (by rfl)
    (clLine_adds _ _) clMore_success (by
      show GoodFiles exKeep rtHash (subFS rtRoot (rootPath flatLayout "a".toList).1) lifeInv1 1 (rtSession rtMore) rtMore
      rw [rtRoot_sub]; exact rt_good) (fun h => absurd h (Nat.lt_irrefl 0)) (rtXp_apart _) true

end Gocfl
