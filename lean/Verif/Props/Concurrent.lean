import Verif.Model.Concurrent
import Verif.Props.Life

/-!
# C134, C135: several commands at the same time
-/

namespace Gocfl

/-! ## Programs alone -/

theorem mset_twice {K V : Type} [DecidableEq K] (m : AMap K V) (k : K) (v v' : V) : mset (mset m k v) k v' = mset m k v' := by
  induction m with
  | nil => simp [mset]
  | cons e m ih =>
    obtain ⟨j, x⟩ := e
    by_cases h : j = k
    · subst h; simp [mset]
    · simp [mset, h, ih]

theorem apply_parts (fs : FS) (p : Str) (b b' : Bytes) :
    (FsOp.append p b').apply ((FsOp.append p b).apply fs) = (FsOp.append p (b ++ b')).apply fs := by
  simp only [FsOp.apply, mget_mset_self, Option.getD_some, mset_twice, List.append_assoc]

theorem subFS_lift_self (op : FsOp) (fs : FS) (f : Str) : subFS ((op.lift f).apply fs) f = op.apply (subFS fs f) :=
  subFS_applyOps_lift [op] fs f

theorem subFS_lift_apart (op : FsOp) (fs : FS) {f g : Str} (h : Apart f g) : subFS ((op.lift f).apply fs) g = subFS fs g := by
  have : stripFolder g (op.lift f).path = none := by
    cases hs : stripFolder g (op.lift f).path with
    | none => rfl
    | some r =>
      have := stripFolder_eq_some.1 hs
      rw [lift_path] at this
      exact absurd this (under_apart h _ _)
  cases op <;> exact subFS_mset_other fs _ this

theorem alone_puts (t : List FsOp) (k : Prog) (o : FS) : (Prog.puts t k).alone o = k.alone (applyOps o t) := by
  induction t generalizing o with
  | nil => rfl
  | cons op t ih => exact ih (op.apply o)

/-- a step does not change what comes out for the command that makes it -/
theorem Step.alone {f : Str} {p p' : Prog} {fs fs' : FS} (h : Step f p fs p' fs') :
    p'.alone (subFS fs' f) = p.alone (subFS fs f) := by
  cases h with
  | look k => rfl
  | put op k => rw [subFS_lift_self]; rfl
  | part q b b' k =>
    rw [subFS_lift_self]
    show k.alone _ = k.alone _
    rw [apply_parts]

/-- and not for a command elsewhere -/
theorem Step.apart {f g : Str} {p p' : Prog} {fs fs' : FS} (h : Step f p fs p' fs') (ha : Apart f g) : subFS fs' g = subFS fs g := by
  cases h with
  | look k => rfl
  | put op k => exact subFS_lift_apart _ _ ha
  | part q b b' k => exact subFS_lift_apart _ _ ha

theorem Step.outside {f : Str} {p p' : Prog} {fs fs' : FS} (h : Step f p fs p' fs') {q : Str} (hq : ∀ r, q ≠ under f r) :
    mget fs' q = mget fs q := by
  cases h with
  | look k => rfl
  | put op k => exact mget_apply_ne (by rw [lift_path]; exact (hq _).symm)
  | part q b b' k => exact mget_apply_ne (by rw [lift_path]; exact (hq _).symm)

theorem Apart.symm {f g : Str} (h : Apart f g) : Apart g f := ⟨h.1.symm, h.2.2, h.2.1⟩

theorem Conc.folders {l l' : List (Str × Prog)} {fs fs' : FS} (h : Conc l fs l' fs') : l'.map (·.1) = l.map (·.1) := by
  induction h with
  | refl => rfl
  | step _ _ ih => rw [ih]; simp

/-- **the commands do not disturb each other** -/
theorem Conc.result {l l' : List (Str × Prog)} {fs fs' : FS} (h : Conc l fs l' fs') (ha : (l.map (·.1)).Pairwise Apart) :
    l'.map (fun e => e.2.alone (subFS fs' e.1)) = l.map (fun e => e.2.alone (subFS fs e.1)) := by
  induction h with
  | refl => rfl
  | @step a b f p p' fs fs' fs'' l hs hc ih =>
    have hf : (a ++ (f, p') :: b).map (·.1) = (a ++ (f, p) :: b).map (·.1) := by simp
    rw [ih (by rw [hf]; exact ha)]
    rw [List.map_append, List.map_cons, List.pairwise_append, List.pairwise_cons] at ha
    obtain ⟨_, ⟨h1, _⟩, h2⟩ := ha
    simp only [List.map_append, List.map_cons, hs.alone]
    have e1 : a.map (fun e => e.2.alone (subFS fs' e.1)) = a.map (fun e => e.2.alone (subFS fs e.1)) :=
      List.map_congr_left (fun e he => by
        rw [hs.apart (h2 e.1 (List.mem_map.2 ⟨e, he, rfl⟩) f List.mem_cons_self).symm])
    have e2 : b.map (fun e => e.2.alone (subFS fs' e.1)) = b.map (fun e => e.2.alone (subFS fs e.1)) :=
      List.map_congr_left (fun e he => by rw [hs.apart (h1 e.1 (List.mem_map.2 ⟨e, he, rfl⟩))])
    rw [e1, e2]

theorem Conc.outside {l l' : List (Str × Prog)} {fs fs' : FS} (h : Conc l fs l' fs') {q : Str}
    (hq : ∀ f ∈ l.map (·.1), ∀ r, q ≠ under f r) : mget fs' q = mget fs q := by
  induction h with
  | refl => rfl
  | @step a b f p p' fs fs' fs'' l hs hc ih =>
    have hf : (a ++ (f, p') :: b).map (·.1) = (a ++ (f, p) :: b).map (·.1) := by simp
    rw [ih (by rw [hf]; exact hq), hs.outside (hq f (by simp))]

/-! ## The commands as programs -/

theorem loadHere_eq (w : World) (env : Env) (plain : Bool) (blank : Inv) (fs : FS) (f : Str) :
    loadHere w env plain blank (subFS fs f) = loadByFolder w env plain blank fs f := rfl

theorem alone_session (w : World) (inv : Inv) (s : Session) (o : FS) :
    (sessionProg w inv s).alone o = (applyOps o (session w inv s).obj.trace, (session w inv s).err) := by
  unfold sessionProg; rw [alone_puts]; rfl

theorem alone_byPath (w : World) (env : Env) (plain : Bool) (blank : Inv) (ls : List (Str → Res Str)) (a : CreateArgs) (fs : FS)
    (id : Str) (s : Session) (hl : (rootPath ls id).2 = false) :
    (byPathProg w env plain blank a id s).alone (subFS fs (rootPath ls id).1) =
      (subFS (applyOps fs (addObjectByPath w env plain blank ls a fs id s).1) (rootPath ls id).1,
        (addObjectByPath w env plain blank ls a fs id s).2) := by
  unfold byPathProg addObjectByPath objectExists
  simp only [hl, Bool.false_eq_true, if_false, Prog.alone]
  by_cases he : subFS fs (rootPath ls id).1 ≠ []
  · simp only [he, not_false_eq_true, if_true, decide_true, Prog.alone, ne_eq]
    unfold loadProg loadByID
    rw [loadHere_eq]
    simp only [hl, Bool.false_eq_true, if_false]
    cases loadByFolder w env plain blank fs (rootPath ls id).1 with
    | error e => rfl
    | ok r => simp only [alone_session, inFolder, subFS_applyOps_lift]
  · rw [if_neg he]
    simp only [he, decide_false, Prog.alone]
    unfold createProg createObject
    rw [alone_puts]
    simp only
    generalize initObject a (subFS fs (rootPath ls id).1) id = x
    obtain ⟨t, r⟩ := x
    cases r with
    | error e =>
      show _ = (subFS (applyOps fs (t.map (FsOp.lift (rootPath ls id).1))) (rootPath ls id).1, some e)
      rw [subFS_applyOps_lift]; rfl
    | ok inv =>
      simp only [res_bind_ok]
      by_cases hid : id ≠ [] ∧ inv.id ≠ id
      · simp only [if_pos hid, Prog.alone, subFS_applyOps_lift]
      · simp only [if_neg hid, alone_session, inFolder, applyOps_append, subFS_applyOps_lift]

/-- nobody else at work, the program does what the command does -/
theorem alone_job (w : World) (env : Env) (plain : Bool) (blank : Inv) (ls : List (Str → Res Str)) (j : Job) (fs : FS) :
    (j.prog w env plain blank ls).alone (subFS fs (rootPath ls j.id).1) =
      (subFS (applyOps fs (j.cmd w env plain blank ls fs).1) (rootPath ls j.id).1, (j.cmd w env plain blank ls fs).2) := by
  unfold Job.prog Job.cmd updateCmd addCmd objectExists
  cases hl : (rootPath ls j.id).2 with
  | true => cases j.update <;> rfl
  | false =>
    have h1 := alone_byPath w env plain blank ls j.args fs j.id j.session hl
    by_cases he : subFS fs (rootPath ls j.id).1 ≠ []
    · cases hu : j.update with
      | true => simp only [Bool.false_eq_true, if_false, Prog.alone, he, decide_true, if_true, ne_eq, not_false_eq_true]; exact h1
      | false =>
        simp only [Bool.false_eq_true, if_false, Prog.alone, he, decide_true, ne_eq, not_false_eq_true]
        rfl
    · cases hu : j.update with
      | true =>
        simp only [Bool.false_eq_true, if_false, Prog.alone, he, decide_false, if_true, ne_eq]
        rfl
      | false => simp only [Bool.false_eq_true, if_false, Prog.alone, he, decide_false, if_true]; exact h1

/-! ## Schedules -/

theorem Conc.trans {l l' l'' : List (Str × Prog)} {fs fs' fs'' : FS} (h : Conc l fs l' fs') (h' : Conc l' fs' l'' fs'') :
    Conc l fs l'' fs'' := by
  induction h with
  | refl => exact h'
  | step hs _ ih => exact .step hs (ih h')

theorem Conc.look {a b : List (Str × Prog)} {f : Str} {k : FS → Prog} {fs : FS} :
    Conc (a ++ (f, .look k) :: b) fs (a ++ (f, k (subFS fs f)) :: b) fs := .step (.look k fs) (.refl _ _)

theorem Conc.puts (a b : List (Str × Prog)) (f : Str) (t : List FsOp) (k : Prog) (fs : FS) :
    Conc (a ++ (f, .puts t k) :: b) fs (a ++ (f, k) :: b) (applyOps fs (t.map (FsOp.lift f))) := by
  induction t generalizing fs with
  | nil => exact .refl _ _
  | cons op t ih => exact .step (.put op _ fs) (ih _)

/-- one command runs to its end, the others wait -/
theorem Conc.run (a b : List (Str × Prog)) (f : Str) (p : Prog) (fs : FS) :
    ∃ fs', Conc (a ++ (f, p) :: b) fs (a ++ (f, .stop (p.alone (subFS fs f)).2) :: b) fs' ∧
      subFS fs' f = (p.alone (subFS fs f)).1 := by
  induction p generalizing fs with
  | stop e => exact ⟨fs, .refl _ _, rfl⟩
  | look k ih =>
    obtain ⟨fs', h1, h2⟩ := ih (subFS fs f) fs
    exact ⟨fs', .step (.look k fs) h1, h2⟩
  | put op k ih =>
    obtain ⟨fs', h1, h2⟩ := ih ((op.lift f).apply fs)
    rw [subFS_lift_self] at h1 h2
    exact ⟨fs', .step (.put op k fs) h1, h2⟩

/-! ## C134 -/

/-- the commands with how they ended -/
def ended (ls : List (Str → Res Str)) (results : List (Job × Option GoErr)) : List (Str × Prog) :=
  results.map (fun r => ((rootPath ls r.1.id).1, .stop r.2))

/-- **C134, in full**: if commands work on different objects at the same time, every object is in the end as if its command
had worked alone, every command ends as if it had worked alone, and nothing else is changed. -/
def C134_full : Prop := ∀ (w : World) (env : Env) (plain : Bool) (blank : Inv) (ls : List (Str → Res Str))
  (results : List (Job × Option GoErr)) (fs fs' : FS), (results.map (fun r => r.1.id)).Nodup →
  Conc (jobProgs w env plain blank ls (results.map (·.1))) fs (ended ls results) fs' →
  (∀ r ∈ results, subFS fs' (rootPath ls r.1.id).1 =
      subFS (applyOps fs (r.1.cmd w env plain blank ls fs).1) (rootPath ls r.1.id).1 ∧
    r.2 = (r.1.cmd w env plain blank ls fs).2) ∧
  ∀ q, (∀ r ∈ results, ∀ x, q ≠ under (rootPath ls r.1.id).1 x) → mget fs' q = mget fs q

/-- **C134, the part that holds**: if the layout gives the objects folders of which none is inside another. -/
theorem C134_apart_partial {w : World} {env : Env} {plain : Bool} {blank : Inv} {ls : List (Str → Res Str)}
    {results : List (Job × Option GoErr)} {fs fs' : FS}
    (ha : (results.map (fun r => (rootPath ls r.1.id).1)).Pairwise Apart)
    (h : Conc (jobProgs w env plain blank ls (results.map (·.1))) fs (ended ls results) fs') :
    (∀ r ∈ results, subFS fs' (rootPath ls r.1.id).1 =
        subFS (applyOps fs (r.1.cmd w env plain blank ls fs).1) (rootPath ls r.1.id).1 ∧
      r.2 = (r.1.cmd w env plain blank ls fs).2) ∧
    ∀ q, (∀ r ∈ results, ∀ x, q ≠ under (rootPath ls r.1.id).1 x) → mget fs' q = mget fs q := by
  constructor
  · have h1 := h.result (by unfold jobProgs; simpa [List.map_map, Function.comp_def] using ha)
    unfold jobProgs ended at h1
    simp only [List.map_map] at h1
    intro r hr
    have h2 := List.map_inj_left.1 h1 r hr
    simp only [Function.comp_apply] at h2
    rw [alone_job] at h2
    exact ⟨congrArg Prod.fst h2, congrArg Prod.snd h2⟩
  · intro q hq
    refine h.outside ?_
    intro f hf x
    unfold jobProgs at hf
    simp only [List.map_map, List.mem_map, Function.comp_apply] at hf
    obtain ⟨r, hr, rfl⟩ := hf
    exact hq r hr x

/-- **C134**: commands never wait for each other: whatever was done so far, all can end. -/
theorem C134_ends (l : List (Str × Prog)) (fs : FS) :
    ∃ errs fs', Conc l fs (l.zipWith (fun e x => (e.1, Prog.stop x)) errs) fs' ∧ errs.length = l.length := by
  have key : ∀ (b a : List (Str × Prog)) (fs : FS), ∃ errs fs',
      Conc (a ++ b) fs (a ++ b.zipWith (fun e x => (e.1, Prog.stop x)) errs) fs' ∧ errs.length = b.length := by
    intro b
    induction b with
    | nil => intro a fs; exact ⟨[], fs, by simpa using Conc.refl a fs, rfl⟩
    | cons e b ih =>
      intro a fs
      obtain ⟨fs1, h1, _⟩ := Conc.run a b e.1 e.2 fs
      obtain ⟨errs, fs2, h2, h3⟩ := ih (a ++ [(e.1, .stop (e.2.alone (subFS fs e.1)).2)]) fs1
      refine ⟨(e.2.alone (subFS fs e.1)).2 :: errs, fs2, ?_, by simp [h3]⟩
      simp only [List.append_assoc, List.singleton_append] at h2
      exact h1.trans h2
  obtain ⟨errs, fs', h1, h2⟩ := key l [] fs
  exact ⟨errs, fs', h1, h2⟩

/-- a command `add` for the object `id`, adding one file `name` -/
def exJob (id name : Str) (data : Bytes) : Job :=
  ⟨false, id, exArgs, { exSession name with body := [.add name [] data true] }⟩

def openEnv : Env := ⟨fun _ => true, fun _ => true⟩

theorem exJob_alone1 : ((exJob "a".toList "c".toList [7]).cmd exWorld openEnv true exInv flatLayout []).2 = none ∧
    mget (subFS (applyOps [] ((exJob "a".toList "c".toList [7]).cmd exWorld openEnv true exInv flatLayout []).1) "a".toList)
      "v1/content/c".toList = some [7] := by decide

theorem exJob_alone2 : ((exJob "b".toList "d".toList [8]).cmd exWorld openEnv true exInv flatLayout []).2 = none ∧
    mget (subFS (applyOps [] ((exJob "b".toList "d".toList [8]).cmd exWorld openEnv true exInv flatLayout []).1) "b".toList)
      "v1/content/d".toList = some [8] := by decide

/-- two commands meeting the hypotheses, both of which do something -/
example : ∃ r1 r2 fs', Conc (jobProgs exWorld openEnv true exInv flatLayout
        [exJob "a".toList "c".toList [7], exJob "b".toList "d".toList [8]]) []
      (ended flatLayout [(exJob "a".toList "c".toList [7], r1), (exJob "b".toList "d".toList [8], r2)]) fs' ∧
    r1 = none ∧ r2 = none ∧ mget fs' "a/v1/content/c".toList = some [7] ∧ mget fs' "b/v1/content/d".toList = some [8] := by
  obtain ⟨errs, fs', h1, h2⟩ := C134_ends (jobProgs exWorld openEnv true exInv flatLayout
        [exJob "a".toList "c".toList [7], exJob "b".toList "d".toList [8]]) []
  match errs, h2 with
  | [r1, r2], _ =>
    have ha : ([(exJob "a".toList "c".toList [7], r1), (exJob "b".toList "d".toList [8], r2)].map
        (fun r : Job × Option GoErr => (rootPath flatLayout r.1.id).1)).Pairwise Apart := by
      show ["a".toList, "b".toList].Pairwise Apart
      have : Apart "a".toList "b".toList := ⟨by decide, fun r => (by intro h; cases h), fun r => (by intro h; cases h)⟩
      exact List.pairwise_cons.2 ⟨by intro x hx; rw [List.mem_singleton.1 hx]; exact this, List.pairwise_singleton _ _⟩
    have h3 := (C134_apart_partial (results := [(exJob "a".toList "c".toList [7], r1), (exJob "b".toList "d".toList [8], r2)]) ha h1).1
    obtain ⟨h4, h5⟩ := h3 _ List.mem_cons_self
    obtain ⟨h6, h7⟩ := h3 _ (List.mem_cons_of_mem _ List.mem_cons_self)
    refine ⟨r1, r2, fs', h1, h5.trans exJob_alone1.1, h7.trans exJob_alone2.1, ?_, ?_⟩
    · have := exJob_alone1.2
      exact (mget_subFS fs' "a".toList "v1/content/c".toList).symm.trans ((congrArg (fun o => mget o "v1/content/c".toList) h4).trans this)
    · have := exJob_alone2.2
      exact (mget_subFS fs' "b".toList "v1/content/d".toList).symm.trans ((congrArg (fun o => mget o "v1/content/d".toList) h6).trans this)

/-- **C134 is violated** with a layout that gives two objects the same folder: the second `add` finds a folder and does nothing,
without an error. -/
theorem C134_full_fails : ¬ C134_full := by
  intro hf
  obtain ⟨errs, fs', h1, h2⟩ := C134_ends (jobProgs exWorld openEnv true exInv omitLayout
        [exJob "info:a".toList "c".toList [7], exJob "urn:a".toList "d".toList [8]]) []
  match errs, h2 with
  | [r1, r2], _ =>
    have h3 := (hf exWorld openEnv true exInv omitLayout
      [(exJob "info:a".toList "c".toList [7], r1), (exJob "urn:a".toList "d".toList [8], r2)] [] fs'
      (by show ["info:a".toList, "urn:a".toList].Nodup; decide) h1).1
    have h4 := (h3 _ List.mem_cons_self).1
    have h5 := (h3 _ (List.mem_cons_of_mem _ List.mem_cons_self)).1
    have h6 : (rootPath omitLayout (exJob "info:a".toList "c".toList [7]).id).1 = "a".toList := by decide
    have h7 : (rootPath omitLayout (exJob "urn:a".toList "d".toList [8]).id).1 = "a".toList := by decide
    simp only [h6] at h4
    simp only [h7] at h5
    have h8 := congrArg (fun o => mget o "v1/content/c".toList) (h4.symm.trans h5)
    exact absurd h8 (by decide)

/-! ## C135 -/

/-- the storage root after two commands one after the other -/
def oneAfterOther (w : World) (env : Env) (plain : Bool) (blank : Inv) (ls : List (Str → Res Str)) (j k : Job) (fs : FS) : FS :=
  let fs1 := applyOps fs (j.cmd w env plain blank ls fs).1
  applyOps fs1 (k.cmd w env plain blank ls fs1).1

/-- **C135, in full**: two commands that change one object at the same time, and both report success, leave it as if one had
worked after the other. -/
def C135_full : Prop := ∀ (w : World) (env : Env) (plain : Bool) (blank : Inv) (ls : List (Str → Res Str)) (j k : Job)
  (fs fs' : FS), j.id = k.id →
  Conc (jobProgs w env plain blank ls [j, k]) fs (ended ls [(j, none), (k, none)]) fs' →
  subFS fs' (rootPath ls j.id).1 = subFS (oneAfterOther w env plain blank ls j k fs) (rootPath ls j.id).1 ∨
  subFS fs' (rootPath ls j.id).1 = subFS (oneAfterOther w env plain blank ls k j fs) (rootPath ls j.id).1

/-- all the paths a program may write -/
def Prog.Writes (P : Str → Prop) : Prog → Prop
  | .stop _ => True
  | .look k => ∀ o, (k o).Writes P
  | .put op k => P op.path ∧ k.Writes P

theorem writes_puts {P : Str → Prop} {t : List FsOp} {k : Prog} (h : ∀ op ∈ t, P op.path) (hk : k.Writes P) :
    (Prog.puts t k).Writes P := by
  induction t with
  | nil => exact hk
  | cons op t ih => exact ⟨h op List.mem_cons_self, ih (fun o ho => h o (List.mem_cons_of_mem _ ho))⟩

theorem Step.writes {P : Str → Prop} {f : Str} {p p' : Prog} {fs fs' : FS} (h : Step f p fs p' fs') (hp : p.Writes P) :
    p'.Writes P ∧ ∀ q, ¬ P q → mget fs' (under f q) = mget fs (under f q) := by
  cases h with
  | look k => exact ⟨hp _, fun _ _ => rfl⟩
  | put op k =>
    refine ⟨hp.2, fun q hq => mget_apply_ne ?_⟩
    rw [lift_path]
    intro he
    exact hq (under_inj.1 he ▸ hp.1)
  | part x b b' k =>
    refine ⟨⟨hp.1, hp.2⟩, fun q hq => mget_apply_ne ?_⟩
    rw [lift_path]
    intro he
    exact hq (under_inj.1 he ▸ hp.1)

theorem Conc.writes {P : Str → Prop} {l l' : List (Str × Prog)} {fs fs' : FS} {f : Str} (h : Conc l fs l' fs')
    (hl : ∀ e ∈ l, e.1 = f ∧ e.2.Writes P) {q : Str} (hq : ¬ P q) : mget fs' (under f q) = mget fs (under f q) := by
  induction h with
  | refl => rfl
  | @step a b g p p' fs fs' fs'' l hs hc ih =>
    obtain ⟨h1, h2⟩ := hl (g, p) (by simp)
    simp only at h1 h2
    subst h1
    obtain ⟨h3, h4⟩ := hs.writes h2
    rw [ih ?_, h4 q hq]
    intro e he
    rcases List.mem_append.1 he with he | he
    · exact hl e (List.mem_append_left _ he)
    · rcases List.mem_cons.1 he with rfl | he
      · exact ⟨rfl, h3⟩
      · exact hl e (List.mem_append_right _ (List.mem_cons_of_mem _ he))

theorem session_paths {w : World} {inv : Inv} {n : Nat} (h : WF inv n) (hc : ValidComp inv.contentDir) {s : Session}
    (hs : SafeNames w s) : ∀ op ∈ (session w inv s).obj.trace, ¬ VersionFile inv n op.path := by
  have hs' : ∀ p a i, (p, a) ∈ s.uses → w.manifestPath p a = .ok i → InsideName i := fun p a i hu hi => hs (p, a) hu i hi
  have key : ∀ op ∈ (sessionOpen w inv s).obj.trace, ¬ VersionFile inv n op.path := fun op hop hv =>
    newPath_ne_old hc hs' (sessionOpen_trace h s op hop) (Or.inr (Or.inr hv)) rfl
  have htop : ∀ q, VersionFile inv n q → (topOf q).head? = some 'v' := by
    rintro q ⟨k, _, _, rest, rfl⟩
    rw [topOf_append (verName_noSlash _ _), verName_head]
  unfold session
  cases he : (sessionOpen w inv s).err with
  | some e => rw [andThen_some he]; exact key
  | none =>
    rw [andThen_none he]
    rcases closeObj_cases w (sessionOpen w inv s).obj s.exts with ⟨h1, _⟩ | ⟨_, _, _, h1, _⟩ | ⟨_, _, h, _, h1⟩
    · rw [h1]; exact key
    · rw [h1]; exact key
    · rw [h1]
      intro op hop hv
      rcases List.mem_append.1 hop with hop | hop
      · exact key op hop hv
      · have h2 := htop _ hv
        rcases List.mem_append.1 hop with hop | hop
        · have h3 : (topOf op.path).head? = some 'i' := by
            rcases List.mem_append.1 hop with hop | hop
            · rw [mem_writeFile_path hop]; decide
            · rw [mem_writeFile_path hop]
              exact topOf_head (p := rootSidecarPath _) rfl (by decide) rfl
          rw [h3] at h2
          exact absurd h2 (by decide)
        · obtain ⟨e, _, hop⟩ := List.mem_flatMap.1 hop
          have h3 : topOf op.path = "extensions".toList := by
            rw [mem_writeFile_path hop]
            exact topOf_append (a := "extensions".toList) (by decide) e.1
          rw [h3] at h2
          exact absurd h2 (by decide)

/-- **C135, the part that holds**: any number of sessions of one object, begun from the same inventory with `n` versions, leave
the files of these versions as they are, at every moment. -/
theorem C135_versions_kept_partial {w : World} {inv : Inv} {n : Nat} {ss : List Session} {f : Str} {fs fs' : FS}
    {l : List (Str × Prog)} (h : WF inv n) (hc : ValidComp inv.contentDir) (hs : ∀ s ∈ ss, SafeNames w s)
    (hr : Conc (ss.map (fun s => (f, sessionProg w inv s))) fs l fs') {q : Str} (hq : VersionFile inv n q) :
    mget fs' (under f q) = mget fs (under f q) := by
  refine hr.writes (P := fun q => ¬ VersionFile inv n q) ?_ (not_not_intro hq)
  intro e he
  obtain ⟨s, hs1, rfl⟩ := List.mem_map.1 he
  exact ⟨rfl, writes_puts (session_paths h hc (hs s hs1)) trivial⟩

/-- an `update` of an object that can be loaded, ready to write -/
theorem update_ready {w : World} {env : Env} {plain : Bool} {blank : Inv} {ls : List (Str → Res Str)} {fs : FS} {j : Job}
    {inv : Inv} {f : List Fnd} (hu : j.update = true) (hl : loadByID w env plain blank ls fs j.id = .ok (inv, f))
    (a b : List (Str × Prog)) :
    Conc (a ++ ((rootPath ls j.id).1, j.prog w env plain blank ls) :: b) fs
      (a ++ ((rootPath ls j.id).1, sessionProg w inv j.session) :: b) fs := by
  unfold loadByID at hl
  split at hl
  · cases hl
  · rename_i hp
    have hne : subFS fs (rootPath ls j.id).1 ≠ [] := by
      intro h0
      unfold loadByFolder at hl
      rw [h0] at hl
      cases hl
    unfold Job.prog
    rw [if_neg hp]
    refine Conc.look.trans ?_
    simp only [hne, ne_eq, not_false_eq_true, decide_true, hu, if_true]
    refine Conc.look.trans ?_
    simp only [hne, ne_eq, not_false_eq_true, if_true]
    refine Conc.look.trans ?_
    unfold loadProg
    rw [loadHere_eq, hl]
    exact .refl _ _

theorem session_run {w : World} {inv : Inv} {s : Session} (he : (session w inv s).err = none) (a b : List (Str × Prog)) (f : Str)
    (fs : FS) : Conc (a ++ (f, sessionProg w inv s) :: b) fs (a ++ (f, .stop none) :: b)
      (applyOps fs ((session w inv s).obj.trace.map (FsOp.lift f))) := by
  unfold sessionProg
  rw [he]
  exact Conc.puts _ _ _ _ _ _

/-- **C135 is violated**, for every object and all changes: two `update`s at the same time may both report success, and the
object has the inventory of the second, made from the one before both; what the first did is lost. -/
theorem C135_lost_update {w : World} {env : Env} {plain : Bool} {blank : Inv} {ls : List (Str → Res Str)} {fs : FS} {j k : Job}
    {inv : Inv} {f : List Fnd} {n : Nat} (hid : j.id = k.id) (hj : j.update = true) (hk : k.update = true)
    (hl : loadByID w env plain blank ls fs j.id = .ok (inv, f)) (hwf : WF inv n)
    (e1 : (session w inv j.session).err = none) (e2 : (session w inv k.session).err = none)
    (hm : (session w inv k.session).obj.inv.modified = true) :
    ∃ fs', Conc (jobProgs w env plain blank ls [j, k]) fs (ended ls [(j, none), (k, none)]) fs' ∧
      mget fs' (under (rootPath ls j.id).1 rootInvPath) = some (w.enc (session w inv k.session).obj.inv) := by
  have hl' := hl
  rw [hid] at hl'
  have r1 := update_ready hj hl [] [((rootPath ls k.id).1, k.prog w env plain blank ls)]
  have r2 := update_ready hk hl' [((rootPath ls j.id).1, sessionProg w inv j.session)] []
  have r3 := session_run e1 [] [((rootPath ls k.id).1, sessionProg w inv k.session)] (rootPath ls j.id).1 fs
  have r4 := session_run e2 [((rootPath ls j.id).1, .stop none)] [] (rootPath ls k.id).1
    (applyOps fs ((session w inv j.session).obj.trace.map (FsOp.lift (rootPath ls j.id).1)))
  refine ⟨_, ((r1.trans r2).trans r3).trans r4, ?_⟩
  rw [← mget_subFS, hid, subFS_applyOps_lift]
  obtain ⟨h, t0, _, _, _, h1, _⟩ := session_stored hwf e2 hm
  rw [h1, applyOps_append, applyOps_append]
  unfold rootWrites
  rw [applyOps_append, mget_applyOps_ne, mget_writeFile_ne, mget_writeFile]
  · intro h2
    have h3 := congrArg (fun l : Str => l.length) h2
    have h4 : (rootSidecarPath (session w inv k.session).obj.inv.digestAlg).length =
        15 + (session w inv k.session).obj.inv.digestAlg.length := List.length_append
    have h5 : rootInvPath.length = 14 := by decide
    simp only [h4, h5] at h3
    omega
  · intro op hop
    obtain ⟨e, _, hop⟩ := List.mem_flatMap.1 hop
    rw [mem_writeFile_path hop]
    intro h2
    have h3 : some 'e' = some 'i' := congrArg List.head? h2
    exact absurd h3 (by decide)

/-- an `add` of an object whose folder is empty, ready to write -/
theorem add_ready {w : World} {env : Env} {plain : Bool} {blank : Inv} {ls : List (Str → Res Str)} {fs : FS} {j : Job}
    (hu : j.update = false) (hp : (rootPath ls j.id).2 = false) (he : subFS fs (rootPath ls j.id).1 = []) (a b : List (Str × Prog)) :
    Conc (a ++ ((rootPath ls j.id).1, j.prog w env plain blank ls) :: b) fs
      (a ++ ((rootPath ls j.id).1, createProg w j.args j.id j.session []) :: b) fs := by
  unfold Job.prog
  rw [hp]
  simp only [Bool.false_eq_true, if_false]
  refine Conc.look.trans ?_
  simp only [he, ne_eq, not_true_eq_false, decide_false, hu, if_true]
  refine Conc.look.trans ?_
  simp only [he, ne_eq, not_true_eq_false, if_false]
  refine Conc.look.trans ?_
  rw [he]
  exact .refl _ _

/-- a new inventory for the examples -/
def exNew (id : Str) : Inv := newInv id exArgs.spec exArgs.alg exArgs.contentDir exArgs.fixity

/-- the changes of such a command -/
noncomputable def exWrites (j : Job) : List FsOp := (initObject exArgs [] j.id).1 ++ (session exKeep (exNew j.id) j.session).obj.trace

theorem exJob_ready (env : Env) (plain : Bool) (blank : Inv) (name : Str) (data : Bytes)
    (he : (session exKeep (exNew "a".toList) (exJob "a".toList name data).session).err = none) (a b : List (Str × Prog)) :
    Conc (a ++ ("a".toList, (exJob "a".toList name data).prog exKeep env plain blank flatLayout) :: b) []
      (a ++ ("a".toList, .puts (exWrites (exJob "a".toList name data)) (.stop none)) :: b) [] := by
  have h := add_ready (w := exKeep) (env := env) (plain := plain) (blank := blank) (ls := flatLayout) (fs := [])
    (j := exJob "a".toList name data) rfl rfl rfl a b
  have h1 : createProg exKeep (exJob "a".toList name data).args (exJob "a".toList name data).id (exJob "a".toList name data).session [] =
      .puts (exWrites (exJob "a".toList name data)) (.stop none) := by
    have h2 : createProg exKeep (exJob "a".toList name data).args (exJob "a".toList name data).id (exJob "a".toList name data).session [] =
      .puts (initObject exArgs [] "a".toList).1 (sessionProg exKeep (exNew "a".toList) (exJob "a".toList name data).session) := rfl
    rw [h2]
    unfold sessionProg exWrites
    rw [he]
    unfold Prog.puts
    rw [List.foldr_append]
    rfl
  rw [h1] at h
  exact h

/-- **C135 is violated** already when two commands add the same object: both create it. -/
theorem C135_full_fails : ¬ C135_full := by
  intro hf
  have r1 := exJob_ready openEnv true exInv "c".toList [7] (by decide) [] [("a".toList, (exJob "a".toList "d".toList [8]).prog exKeep openEnv true exInv flatLayout)]
  have r2 := exJob_ready openEnv true exInv "d".toList [8] (by decide) [("a".toList, .puts (exWrites (exJob "a".toList "c".toList [7])) (.stop none))] []
  have r3 := Conc.puts [] [("a".toList, .puts (exWrites (exJob "a".toList "d".toList [8])) (.stop none))] "a".toList
    (exWrites (exJob "a".toList "c".toList [7])) (.stop none) []
  have r4 := Conc.puts [("a".toList, .stop none)] [] "a".toList (exWrites (exJob "a".toList "d".toList [8])) (.stop none)
    (applyOps [] ((exWrites (exJob "a".toList "c".toList [7])).map (FsOp.lift "a".toList)))
  have h := hf exKeep openEnv true exInv flatLayout (exJob "a".toList "c".toList [7]) (exJob "a".toList "d".toList [8]) [] _ rfl
    (((r1.trans r2).trans r3).trans r4)
  rcases h with h | h
  · have := congrArg (fun o => mget o "v1/content/d".toList) h
    exact absurd this (by decide)
  · have := congrArg (fun o => mget o "v1/content/c".toList) h
    exact absurd this (by decide)

/-- **C135 is violated** also in this way: two commands give a name different contents, both report success, and the object is
damaged; its inventory has the digest of the one content, the file the other content. -/
theorem C135_full_fails_damage : ∃ (fs' : FS) (i : Inv) (h : Bytes → Str) (d : Str) (b : Bytes),
    Conc (jobProgs exKeep openEnv true exInv flatLayout [exJob "a".toList "c".toList [7], exJob "a".toList "c".toList [8, 8]]) []
      (ended flatLayout [(exJob "a".toList "c".toList [7], none), (exJob "a".toList "c".toList [8, 8], none)]) fs' ∧
    mget fs' "a/inventory.json".toList = some (exKeep.enc i) ∧ mget i.manifest d = some ["v1/content/c".toList] ∧
    mget fs' "a/v1/content/c".toList = some b ∧ exKeep.hash i.digestAlg = some h ∧ h b ≠ d := by
  have r1 := exJob_ready openEnv true exInv "c".toList [7] (by decide) [] [("a".toList, (exJob "a".toList "c".toList [8, 8]).prog exKeep openEnv true exInv flatLayout)]
  have r2 := exJob_ready openEnv true exInv "c".toList [8, 8] (by decide) [("a".toList, .puts (exWrites (exJob "a".toList "c".toList [7])) (.stop none))] []
  have e : Prog.puts (exWrites (exJob "a".toList "c".toList [8, 8])) (.stop none) =
      .puts ((exWrites (exJob "a".toList "c".toList [8, 8])).take 4) (.puts ((exWrites (exJob "a".toList "c".toList [8, 8])).drop 4) (.stop none)) := by
    unfold Prog.puts
    rw [← List.foldr_append, List.take_append_drop]
  rw [e] at r2
  have r3 := Conc.puts [("a".toList, .puts (exWrites (exJob "a".toList "c".toList [7])) (.stop none))] [] "a".toList
    ((exWrites (exJob "a".toList "c".toList [8, 8])).take 4) (.puts ((exWrites (exJob "a".toList "c".toList [8, 8])).drop 4) (.stop none)) []
  have r4 := Conc.puts [] [("a".toList, .puts ((exWrites (exJob "a".toList "c".toList [8, 8])).drop 4) (.stop none))] "a".toList
    (exWrites (exJob "a".toList "c".toList [7])) (.stop none)
    (applyOps [] (((exWrites (exJob "a".toList "c".toList [8, 8])).take 4).map (FsOp.lift "a".toList)))
  have r5 := Conc.puts [("a".toList, .stop none)] [] "a".toList ((exWrites (exJob "a".toList "c".toList [8, 8])).drop 4) (.stop none)
    (applyOps (applyOps [] (((exWrites (exJob "a".toList "c".toList [8, 8])).take 4).map (FsOp.lift "a".toList)))
      ((exWrites (exJob "a".toList "c".toList [7])).map (FsOp.lift "a".toList)))
  refine ⟨_, (session exKeep (exNew "a".toList) (exJob "a".toList "c".toList [8, 8]).session).obj.inv,
    fun b => 'a' :: List.replicate b.length '0', "a00".toList, [7],
    (((r1.trans r2).trans r3).trans r4).trans r5, ?_, by decide, by decide, rfl, by decide⟩
  rfl

/-- a disk with an object that is read as `exInv` -/
def readWorld : World := { exWorld with dec := fun _ => some (rawOf exInv) }

def readDisk : FS :=
  [("a/0=ocfl_object_1.1".toList, asBytes "ocfl_object_1.1\n".toList), ("a/inventory.json".toList, [1]),
   ("a/inventory.json.sha512".toList, sidecarText "a0".toList), ("a/v1/content/a".toList, [5]), ("a/v2/content/b".toList, [6])]

def concUpdate (name : Str) (data : Bytes) : Job := { exJob "a".toList name data with update := true }

/-- two updates meeting the hypotheses -/
example : ∃ fs', Conc (jobProgs readWorld openEnv true exInv flatLayout [concUpdate "c".toList [7], concUpdate "d".toList [8, 8]]) readDisk
      (ended flatLayout [(concUpdate "c".toList [7], none), (concUpdate "d".toList [8, 8], none)]) fs' ∧
    mget fs' "a/inventory.json".toList = some (readWorld.enc (session readWorld exInv (concUpdate "d".toList [8, 8]).session).obj.inv) ∧
    mget (session readWorld exInv (concUpdate "d".toList [8, 8]).session).obj.inv.manifest "a0".toList = none ∧
    mget (session readWorld exInv (concUpdate "c".toList [7]).session).obj.inv.manifest "a0".toList = some ["v3/content/c".toList] := by
  have hl : ∃ f, loadByID readWorld openEnv true exInv flatLayout readDisk (concUpdate "c".toList [7]).id = .ok (exInv, f) := ⟨_, rfl⟩
  obtain ⟨f, hl⟩ := hl
  obtain ⟨fs', h1, h2⟩ := C135_lost_update (j := concUpdate "c".toList [7]) (k := concUpdate "d".toList [8, 8]) rfl rfl rfl hl exInv_wf2 (by decide) (by decide) (by decide)
  exact ⟨fs', h1, h2, by decide, by decide⟩

/-- a file of an earlier version -/
example (l : List (Str × Prog)) (fs' : FS)
    (h : Conc ([exSession "c/d".toList, exSession "e".toList].map (fun s => ("a".toList, sessionProg readWorld exInv s))) readDisk l fs') :
    mget fs' "a/v1/content/a".toList = some [5] := by
  refine (C135_versions_kept_partial (q := "v1/content/a".toList) exInv_wf2 exInv_contentDir ?_ h
    ⟨1, by omega, by omega, "content/a".toList, by decide⟩).trans (by decide)
  intro s hs x hx i hi
  rcases List.mem_cons.1 hs with rfl | hs
  · have : x = ("c/d".toList, []) := by simpa [Session.uses, exSession, callsUses, Call.uses] using hx
    subst this
    cases hi
    exact ⟨1, by decide⟩
  · rw [List.mem_singleton.1 hs] at hx
    have : x = ("e".toList, []) := by simpa [Session.uses, exSession, callsUses, Call.uses] using hx
    subst this
    cases hi
    exact ⟨0, by decide⟩

end Gocfl
